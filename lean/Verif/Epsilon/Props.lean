import Verif.Epsilon.Lemmas
import Verif.Tensor.GridProps

/-!
# Property C85: the dielectric function as the user sees it
-/

namespace Mpb.Epsilon
open Tensor Tensor.Spec Field Matrix Spec

theorem eig_vector {M : Matrix (Fin 3) (Fin 3) ℂ} {e : Fin 3 → ℝ} (h : Eigenvalues M e) (i : Fin 3) :
    ∃ v, len2 v = 1 ∧ M *ᵥ v = (e i : ℂ) • v := by
  obtain ⟨h0, h1, U, u1, u2, hM⟩ := h
  refine ⟨Uᴴ *ᵥ Pi.single i 1, ?_, ?_⟩
  · rw [len2_unit U u2, Matrix.mulVec_mulVec, u1, Matrix.one_mulVec]
    rw [Finset.sum_eq_single i] <;> simp +contextual
  · rw [hM, Matrix.mulVec_mulVec, Matrix.mul_assoc, u1, Matrix.mul_one, ← Matrix.mulVec_mulVec, ← Matrix.mulVec_smul]
    congr 1
    ext j
    rw [Matrix.mulVec_diagonal]
    by_cases hj : j = i
    · subst hj; simp
    · simp [hj]

theorem eig_unique_two {M : Matrix (Fin 3) (Fin 3) ℂ} {e e' : Fin 3 → ℝ} (h : Eigenvalues M e) (h' : Eigenvalues M e') :
    e 0 + e 1 = e' 0 + e' 1 := by
  have h1 := eig_trace h
  have h1' := eig_trace h'
  obtain ⟨v, hv, he⟩ := eig_attained h 2
  obtain ⟨v', hv', he'⟩ := eig_attained h' 2
  have h2 := (eig_le h v').2
  have h2' := (eig_le h' v).2
  rw [hv'] at h2
  rw [hv] at h2'
  linarith

/-- C85, isotropic media: the reported dielectric constant of a pixel of an isotropic medium is that of the medium. -/
theorem C85_isotropic {heev : Heev} (hh : HeevOk heev) {ε : ℝ} (hε : 0 < ε) : meanMedium heev (iso (1 / ε)) = some ε := by
  have hf : ∀ v, form (toMatrix (iso (1 / ε))) v = 1 / ε * len2 v := by
    intro v
    unfold form len2
    rw [toMatrix_iso, Matrix.smul_mulVec, Matrix.one_mulVec, dotProduct_smul, smul_eq_mul, Complex.re_ofReal_mul]
  have he := eigs_ok hh (iso (1 / ε))
  have ht := eig_trace he
  obtain ⟨v0, a0, b0⟩ := eig_attained he 0
  obtain ⟨v1, a1, b1⟩ := eig_attained he 1
  rw [hf, a0, mul_one] at b0
  rw [hf, a1, mul_one] at b1
  unfold meanMedium
  dsimp only
  rw [← b0, ← b1, if_neg (by positivity)]
  congr 1
  field_simp
  norm_num

/-- C85, bounds: if every principal permittivity of the tensor lies between `lo` and `hi`, so does the reported dielectric constant. -/
theorem C85_bounds {heev : Heev} (hh : HeevOk heev) {eps epsInv : HMat} (hinv : Inverse eps epsInv) {lo hi : ℝ} (hlo : 0 < lo)
    (h : ∀ v, lo * len2 v ≤ form (toMatrix eps) v ∧ form (toMatrix eps) v ≤ hi * len2 v) :
    ∃ ε, meanMedium heev epsInv = some ε ∧ lo ≤ ε ∧ ε ≤ hi := by
  have he := eigs_ok hh epsInv
  have key : ∀ i, 0 < symMatrixEigs heev epsInv i ∧ lo * symMatrixEigs heev epsInv i ≤ 1 ∧ 1 ≤ hi * symMatrixEigs heev epsInv i := by
    intro i
    obtain ⟨v, hv, hw⟩ := eig_vector he i
    generalize symMatrixEigs heev epsInv i = l at hw ⊢
    have h1 : (l : ℂ) • (toMatrix eps *ᵥ v) = v := by
      rw [← Matrix.mulVec_smul, ← hw, Matrix.mulVec_mulVec, hinv, Matrix.one_mulVec]
    have h2 : l * form (toMatrix eps) v = 1 := by
      rw [← hv]
      unfold form len2
      rw [← Complex.re_ofReal_mul, ← smul_eq_mul, ← dotProduct_smul, h1]
    obtain ⟨a, b⟩ := h v
    rw [hv, mul_one] at a b
    have hl : 0 < l := by
      by_contra hl
      nlinarith
    refine ⟨hl, by nlinarith, by nlinarith⟩
  obtain ⟨p0, a0, b0⟩ := key 0
  obtain ⟨p1, a1, b1⟩ := key 1
  unfold meanMedium
  dsimp only
  have hp : 0 < symMatrixEigs heev epsInv 0 + symMatrixEigs heev epsInv 1 := by linarith
  rw [if_neg hp.ne']
  refine ⟨_, rfl, ?_, ?_⟩
  · rw [le_div_iff₀ hp]; linarith
  · rw [div_le_iff₀ hp]; linarith

/-- C85, orientation: turning the crystal does not change the reported dielectric constant. -/
theorem C85_rotation {heev : Heev} (hh : HeevOk heev) (W : HMat) {R : M3 ℝ} (hR : (rows R)ᵀ * rows R = 1) :
    meanMedium heev (hRotate W R) = meanMedium heev W := by
  have h1 := eigs_ok hh (hRotate W R)
  have h2 : Eigenvalues (toMatrix (hRotate W R)) (symMatrixEigs heev W) := by
    obtain ⟨h0, h1, U, u1, u2, hM⟩ := eigs_ok hh W
    have hR' := mul_eq_one_comm.mp hR
    set C := (rows R).map (fun x : ℝ => (x : ℂ)) with hC
    have e1 : Cᴴ = ((rows R)ᵀ).map (fun x : ℝ => (x : ℂ)) := by
      ext i j
      simp [hC, Matrix.conjTranspose_apply]
    have c1 : Cᴴ * C = 1 := by rw [e1, hC, ← map_ofReal_mul, hR, map_ofReal_one]
    have c2 : C * Cᴴ = 1 := by rw [e1, hC, ← map_ofReal_mul, hR', map_ofReal_one]
    refine ⟨h0, h1, U * C, ?_, ?_, ?_⟩
    · rw [Matrix.conjTranspose_mul, Matrix.mul_assoc, ← Matrix.mul_assoc C, c2, Matrix.one_mul, u1]
    · rw [Matrix.conjTranspose_mul, Matrix.mul_assoc, ← Matrix.mul_assoc Uᴴ, u2, Matrix.one_mul, c1]
    · rw [toMatrix_hRotate, Matrix.conjTranspose_mul, e1]
      rw [hM]
      simp only [Matrix.mul_assoc, Matrix.transpose_map]
      rfl
  unfold meanMedium
  dsimp only
  rw [eig_unique_two h1 h2]

theorem cs3 (a b c x y z : ℝ) : (a * x + b * y + c * z) ^ 2 ≤ (a ^ 2 + b ^ 2 + c ^ 2) * (x ^ 2 + y ^ 2 + z ^ 2) := by
  nlinarith [sq_nonneg (a * y - b * x), sq_nonneg (a * z - c * x), sq_nonneg (b * z - c * y)]

/-- A uniaxial tensor: `M` across, `H` along the axis `n`. -/
theorem uniaxial {m : HMat} {n : V3 ℝ} (hn : NonZero n) {H M : ℝ} (h1 : toMatrix m *ᵥ Tensor.Spec.col n = (H : ℂ) • Tensor.Spec.col n)
    (h2 : ∀ t : V3 ℝ, n.x * t.x + n.y * t.y + n.z * t.z = 0 → toMatrix m *ᵥ Tensor.Spec.col t = (M : ℂ) • Tensor.Spec.col t) :
    toMatrix m = (M : ℂ) • (1 : Matrix (Fin 3) (Fin 3) ℂ) +
      (((H - M) / (n.x ^ 2 + n.y ^ 2 + n.z ^ 2) : ℝ) : ℂ) • vecMulVec (Tensor.Spec.col n) (Tensor.Spec.col n) := by
  have hN : n.x ^ 2 + n.y ^ 2 + n.z ^ 2 ≠ 0 := by
    rcases hn with h | h | h <;> positivity
  have key : ∀ t : V3 ℝ, toMatrix m *ᵥ Tensor.Spec.col t = ((M : ℂ) • (1 : Matrix (Fin 3) (Fin 3) ℂ) +
      (((H - M) / (n.x ^ 2 + n.y ^ 2 + n.z ^ 2) : ℝ) : ℂ) • vecMulVec (Tensor.Spec.col n) (Tensor.Spec.col n)) *ᵥ Tensor.Spec.col t := by
    intro t
    set N := n.x ^ 2 + n.y ^ 2 + n.z ^ 2 with hNd
    set d := (n.x * t.x + n.y * t.y + n.z * t.z) / N with hd
    have hs : Tensor.Spec.col t = (d : ℂ) • Tensor.Spec.col n + Tensor.Spec.col ⟨t.x - d * n.x, t.y - d * n.y, t.z - d * n.z⟩ := by
      ext i
      fin_cases i <;> simp [Tensor.Spec.col]
    have ho := h2 ⟨t.x - d * n.x, t.y - d * n.y, t.z - d * n.z⟩ (by
      have : d * N = n.x * t.x + n.y * t.y + n.z * t.z := by rw [hd]; field_simp
      simp only
      rw [hNd] at this
      linarith)
    rw [hs, Matrix.mulVec_add, Matrix.mulVec_smul, h1, ho, ← hs]
    have hc : Tensor.Spec.col ⟨t.x - d * n.x, t.y - d * n.y, t.z - d * n.z⟩ = Tensor.Spec.col t - (d : ℂ) • Tensor.Spec.col n := by
      rw [hs]; simp
    rw [hc]
    ext i
    have hdd : (d : ℂ) = (n.x * t.x + n.y * t.y + n.z * t.z) / N := by rw [hd]; push_cast; rfl
    rw [hdd]
    fin_cases i <;> simp [Tensor.Spec.col, Matrix.mulVec, dotProduct, Fin.sum_univ_three, vecMulVec] <;> ring
  ext i j
  have hj : ∃ t : V3 ℝ, Tensor.Spec.col t = Pi.single j 1 := by
    fin_cases j
    · exact ⟨⟨1, 0, 0⟩, by ext k; fin_cases k <;> simp [Tensor.Spec.col]⟩
    · exact ⟨⟨0, 1, 0⟩, by ext k; fin_cases k <;> simp [Tensor.Spec.col]⟩
    · exact ⟨⟨0, 0, 1⟩, by ext k; fin_cases k <;> simp [Tensor.Spec.col]⟩
  obtain ⟨t, ht⟩ := hj
  have := congrFun (key t) i
  rw [ht, Matrix.mulVec_single_one, Matrix.mulVec_single_one] at this
  exact this

/-- C85, interfaces: at an interface between two isotropic media the reported dielectric constant is the arithmetic mean of the two, weighted
by the filling fraction, whatever the direction of the interface. -/
theorem C85_interface {heev : Heev} (hh : HeevOk heev) {f a b : ℝ} (h0 : 0 ≤ f) (h1 : f ≤ 1) (ha : 0 < a) (hb : 0 < b) {n : V3 ℝ}
    (hn : NonZero n) : ∃ m w, kottke f n (iso a) (iso b) = some m ∧ hInvert m = .ok w ∧ meanMedium heev w = some (f * a + (1 - f) * b) := by
  obtain ⟨m, hm, e1, e2⟩ := C11_isotropic f a b h0 h1 ha hb n hn
  have hp : PosDef m := by
    obtain ⟨m', hm', hp⟩ := C11_posDef f h0 h1 n hn (iso a) (iso b) (by rw [← hPosDef_iff]; simp [hPosDef, nsq, iso]; constructorm* _ ∧ _ <;> positivity)
      (by rw [← hPosDef_iff]; simp [hPosDef, nsq, iso]; constructorm* _ ∧ _ <;> positivity)
    rw [hm] at hm'
    cases hm'
    exact hp
  obtain ⟨w, hw⟩ := hInvert_of_det (posDef_det hp)
  refine ⟨m, w, hm, hw, ?_⟩
  have hmw := hInvert_ok hw
  have hwm := mul_eq_one_comm.mp hmw
  have hpos : 0 < f / a + (1 - f) / b := by
    rcases h0.lt_or_eq with h | h
    · have h2 : 0 < f / a := div_pos h ha
      have h3 : 0 ≤ (1 - f) / b := div_nonneg (by linarith) hb.le
      linarith
    · subst h
      have : 0 < (1 - 0) / b := by rw [sub_zero]; positivity
      simpa using this
  have hM : 0 < f * a + (1 - f) * b := by
    rcases h0.lt_or_eq with h | h
    · have h2 : 0 < f * a := mul_pos h ha
      have h3 : 0 ≤ (1 - f) * b := mul_nonneg (by linarith) hb.le
      linarith
    · subst h; simpa using hb
  have hle : 1 / (f * a + (1 - f) * b) ≤ f / a + (1 - f) / b := by
    rw [div_le_iff₀ hM]
    have : (f / a + (1 - f) / b) * (f * a + (1 - f) * b) - 1 = f * (1 - f) * (a - b) ^ 2 / (a * b) := by field_simp; ring
    have h2 : 0 ≤ f * (1 - f) * (a - b) ^ 2 / (a * b) := by
      have : 0 ≤ 1 - f := by linarith
      positivity
    linarith
  generalize f / a + (1 - f) / b = L at *
  generalize f * a + (1 - f) * b = M at *
  have inv : ∀ (v : Fin 3 → ℂ) (x : ℝ), x ≠ 0 → toMatrix m *ᵥ v = (x : ℂ) • v → toMatrix w *ᵥ v = ((1 / x : ℝ) : ℂ) • v := by
    intro v x hx h
    have h2 : (x : ℂ) • (toMatrix w *ᵥ v) = v := by rw [← Matrix.mulVec_smul, ← h, Matrix.mulVec_mulVec, hwm, Matrix.one_mulVec]
    rw [← h2, smul_smul, ← Complex.ofReal_mul, one_div_mul_cancel hx]
    rw [h2]
    simp
  have w1 := inv _ _ (by positivity) e1
  rw [one_div_one_div] at w1
  have w2 := fun t ht => inv _ _ hM.ne' (e2 t ht)
  have hu := uniaxial hn w1 w2
  have hN : 0 < n.x ^ 2 + n.y ^ 2 + n.z ^ 2 := by
    rcases hn with h | h | h <;> positivity
  have hform : ∀ v, form (toMatrix w) v = 1 / M * len2 v + (L - 1 / M) / (n.x ^ 2 + n.y ^ 2 + n.z ^ 2) *
      ((n.x * (v 0).re + n.y * (v 1).re + n.z * (v 2).re) ^ 2 + (n.x * (v 0).im + n.y * (v 1).im + n.z * (v 2).im) ^ 2) := by
    intro v
    unfold form len2
    rw [hu]
    generalize (L - 1 / M) / (n.x ^ 2 + n.y ^ 2 + n.z ^ 2) = c
    generalize 1 / M = d
    simp [Matrix.add_mulVec, Matrix.smul_mulVec, Tensor.Spec.col, dotProduct, Fin.sum_univ_three, vecMulVec, Matrix.mulVec]
    ring
  have hlen : ∀ v : Fin 3 → ℂ, len2 v = ((v 0).re ^ 2 + (v 1).re ^ 2 + (v 2).re ^ 2) + ((v 0).im ^ 2 + (v 1).im ^ 2 + (v 2).im ^ 2) := by
    intro v
    simp [len2, dotProduct, Fin.sum_univ_three]
    ring
  have hmax : ∀ v, form (toMatrix w) v ≤ L * len2 v := by
    intro v
    have c1 := cs3 n.x n.y n.z (v 0).re (v 1).re (v 2).re
    have c2 := cs3 n.x n.y n.z (v 0).im (v 1).im (v 2).im
    have : (L - 1 / M) / (n.x ^ 2 + n.y ^ 2 + n.z ^ 2) *
      ((n.x * (v 0).re + n.y * (v 1).re + n.z * (v 2).re) ^ 2 + (n.x * (v 0).im + n.y * (v 1).im + n.z * (v 2).im) ^ 2) ≤ (L - 1 / M) * len2 v := by
      rw [div_mul_eq_mul_div, div_le_iff₀ hN, hlen, mul_assoc]
      apply mul_le_mul_of_nonneg_left _ (by linarith)
      linarith
    rw [hform]
    linarith
  have hs : 0 < Real.sqrt (n.x ^ 2 + n.y ^ 2 + n.z ^ 2) := Real.sqrt_pos.mpr hN
  have hsq : Real.sqrt (n.x ^ 2 + n.y ^ 2 + n.z ^ 2) ^ 2 = n.x ^ 2 + n.y ^ 2 + n.z ^ 2 := Real.sq_sqrt hN.le
  have htop : ∃ v, len2 v = 1 ∧ form (toMatrix w) v = L := by
    generalize Real.sqrt (n.x ^ 2 + n.y ^ 2 + n.z ^ 2) = r at hs hsq
    have hl : len2 (Tensor.Spec.col ⟨n.x / r, n.y / r, n.z / r⟩) = 1 := by
      rw [hlen]
      simp [Tensor.Spec.col, div_pow]
      norm_cast
      rw [← add_div, ← add_div, hsq, div_self hN.ne']
    refine ⟨Tensor.Spec.col ⟨n.x / r, n.y / r, n.z / r⟩, hl, ?_⟩
    rw [hform, hl]
    have e1 : n.x * (n.x / r) + n.y * (n.y / r) + n.z * (n.z / r) = r := by
      rw [← mul_div_assoc, ← mul_div_assoc, ← mul_div_assoc, ← add_div, ← add_div, div_eq_iff hs.ne', ← sq, ← sq, ← sq, ← sq, hsq]
    simp [Tensor.Spec.col]
    norm_cast
    rw [e1, hsq]
    field_simp
    ring
  obtain ⟨v, hv, hvL⟩ := htop
  have htr : (toMatrix w).trace.re = 2 / M + L := by
    rw [hu, Matrix.trace_add, Matrix.trace_smul, Matrix.trace_smul]
    simp only [Matrix.trace, Matrix.diag, vecMulVec, Fin.sum_univ_three, Tensor.Spec.col, Matrix.of_apply]
    simp
    norm_cast
    field_simp
    ring
  have he := eigs_ok hh w
  have h2 := eig_two_eq he hv (fun u hu => by rw [hvL]; have := hmax u; rwa [hu, mul_one] at this)
  rw [htr, hvL] at h2
  unfold meanMedium
  dsimp only
  rw [h2, if_neg (by rw [add_sub_cancel_right]; positivity)]
  congr 1
  rw [add_sub_cancel_right]
  field_simp

end Mpb.Epsilon

import Verif.Tensor.Spec

/-!
# Dielectric tensors: lemmas
-/

namespace Mpb.Tensor
open Matrix Spec

theorem Res.ok_inj {α : Type*} {a b : α} (h : Res.ok a = Res.ok b) : a = b := by cases h; rfl

/-- The quadratic form of a tensor in real coordinates. -/
def quad (M : HMat) (a b c : ℂ) : ℝ :=
  M.m00 * nsq a + M.m11 * nsq b + M.m22 * nsq c +
  2 * (a.re * (M.m01.re * b.re - M.m01.im * b.im) + a.im * (M.m01.re * b.im + M.m01.im * b.re)) +
  2 * (a.re * (M.m02.re * c.re - M.m02.im * c.im) + a.im * (M.m02.re * c.im + M.m02.im * c.re)) +
  2 * (b.re * (M.m12.re * c.re - M.m12.im * c.im) + b.im * (M.m12.re * c.im + M.m12.im * c.re))

theorem form_eq (M : HMat) (v : Fin 3 → ℂ) : (star v ⬝ᵥ (toMatrix M *ᵥ v)).re = quad M (v 0) (v 1) (v 2) := by
  simp [toMatrix, dotProduct, mulVec, Fin.sum_univ_three, quad, nsq]
  ring

theorem posDef_iff_quad (M : HMat) : PosDef M ↔ ∀ a b c : ℂ, (a ≠ 0 ∨ b ≠ 0 ∨ c ≠ 0) → 0 < quad M a b c := by
  constructor
  · intro h a b c hne
    have := h ![a, b, c] (by
      intro h0
      have h1 := congrFun h0 0
      have h2 := congrFun h0 1
      have h3 := congrFun h0 2
      simp at h1 h2 h3
      tauto)
    rw [form_eq] at this
    simpa using this
  · intro h v hv
    rw [form_eq]
    refine h _ _ _ ?_
    by_contra hc
    push Not at hc
    exact hv (by ext i; fin_cases i <;> simp [hc.1, hc.2.1, hc.2.2])

theorem nsq_nonneg (z : ℂ) : 0 ≤ nsq z := by unfold nsq; nlinarith [mul_self_nonneg z.re, mul_self_nonneg z.im]

theorem nsq_pos {z : ℂ} (h : z ≠ 0) : 0 < nsq z := by
  rcases (nsq_nonneg z).lt_or_eq with h1 | h1
  · exact h1
  · exfalso
    apply h
    unfold nsq at h1
    have ha := mul_self_nonneg z.re
    have hb := mul_self_nonneg z.im
    have h2 : z.re * z.re = 0 := by linarith
    have h3 : z.im * z.im = 0 := by linarith
    exact Complex.ext (by simpa using h2) (by simpa using h3)

/-- The Schur complement form of a tensor after eliminating the first axis. -/
def form2 (q r : ℝ) (z b c : ℂ) : ℝ :=
  q * nsq b + r * nsq c + 2 * (b.re * (z.re * c.re - z.im * c.im) + b.im * (z.re * c.im + z.im * c.re))

/-- Completing the square along the first axis. -/
theorem quad_schur (M : HMat) (h : M.m00 ≠ 0) (a b c : ℂ) :
    M.m00 * quad M a b c = nsq (M.m00 * a + M.m01 * b + M.m02 * c) +
      M.m00 * form2 (tau M).m11 (tau M).m22 (tau M).m12 b c := by
  simp only [quad, form2, tau, nsq, mulConj, Complex.add_re, Complex.add_im, Complex.mul_re, Complex.mul_im,
    Complex.ofReal_re, Complex.ofReal_im]
  field_simp
  ring

/-- A tensor is positive definite exactly when its first entry is positive and its Schur complement form is. -/
theorem posDef_iff_schur (M : HMat) : PosDef M ↔
    0 < M.m00 ∧ ∀ b c : ℂ, (b ≠ 0 ∨ c ≠ 0) → 0 < form2 (tau M).m11 (tau M).m22 (tau M).m12 b c := by
  rw [posDef_iff_quad]
  constructor
  · intro h
    have h0 : 0 < M.m00 := by
      have := h 1 0 0 (by simp)
      simpa [quad, nsq] using this
    refine ⟨h0, fun b c hbc => ?_⟩
    have h1 := h (-(M.m01 * b + M.m02 * c) / M.m00) b c (by tauto)
    have h2 := quad_schur M h0.ne' (-(M.m01 * b + M.m02 * c) / M.m00) b c
    have h3 : (M.m00 : ℂ) * (-(M.m01 * b + M.m02 * c) / M.m00) + M.m01 * b + M.m02 * c = 0 := by
      have : (M.m00 : ℂ) ≠ 0 := by exact_mod_cast h0.ne'
      field_simp
      ring
    rw [h3] at h2
    have h4 : nsq 0 = 0 := by simp [nsq]
    rw [h4, zero_add] at h2
    have := mul_left_cancel₀ h0.ne' h2
    rwa [← this]
  · rintro ⟨h0, h⟩ a b c hne
    have h2 := quad_schur M h0.ne' a b c
    have h3 : 0 < M.m00 * quad M a b c := by
      rw [h2]
      by_cases hbc : b ≠ 0 ∨ c ≠ 0
      · have := mul_pos h0 (h b c hbc)
        have := nsq_nonneg (M.m00 * a + M.m01 * b + M.m02 * c)
        linarith
      · push Not at hbc
        obtain ⟨rfl, rfl⟩ := hbc
        have ha : a ≠ 0 := by simpa using hne
        have h5 : (M.m00 : ℂ) * a + M.m01 * 0 + M.m02 * 0 ≠ 0 := by
          simpa using ⟨h0.ne', ha⟩
        have h6 := nsq_pos h5
        have h7 : form2 (tau M).m11 (tau M).m22 (tau M).m12 0 0 = 0 := by simp [form2, nsq]
        rw [h7]
        linarith
    exact (mul_pos_iff_of_pos_left h0).mp h3

/-- Positivity of a 2x2 Hermitian form. -/
theorem form2_pos_iff (q r : ℝ) (z : ℂ) :
    (∀ b c : ℂ, (b ≠ 0 ∨ c ≠ 0) → 0 < form2 q r z b c) ↔ 0 < q ∧ 0 < q * r - nsq z := by
  have key : ∀ b c : ℂ, q * form2 q r z b c = nsq (q * b + z * c) + (q * r - nsq z) * nsq c := by
    intro b c
    simp only [form2, nsq, Complex.add_re, Complex.add_im, Complex.mul_re, Complex.mul_im,
      Complex.ofReal_re, Complex.ofReal_im]
    ring
  constructor
  · intro h
    have hq : 0 < q := by
      have := h 1 0 (by simp)
      simpa [form2, nsq] using this
    refine ⟨hq, ?_⟩
    have h1 := h (-z) q (Or.inr (by exact_mod_cast hq.ne'))
    have h2 := key (-z) q
    have h3 : (q : ℂ) * -z + z * q = 0 := by ring
    rw [h3] at h2
    have h4 : nsq 0 = 0 := by simp [nsq]
    have h5 : nsq (q : ℂ) = q * q := by simp [nsq]
    rw [h4, zero_add, h5] at h2
    have h6 : 0 < (q * r - nsq z) * (q * q) := by rw [← h2]; exact mul_pos hq h1
    exact (mul_pos_iff_of_pos_right (mul_pos hq hq)).mp h6
  · rintro ⟨hq, hd⟩ b c hne
    have h1 : 0 < q * form2 q r z b c := by
      rw [key]
      by_cases hc : c = 0
      · subst hc
        have hb : b ≠ 0 := by simpa using hne
        have h5 : (q : ℂ) * b + z * 0 ≠ 0 := by simpa using ⟨hq.ne', hb⟩
        have := nsq_pos h5
        have h7 : nsq 0 = 0 := by simp [nsq]
        rw [h7]; linarith
      · have := nsq_nonneg ((q : ℂ) * b + z * c)
        have := mul_pos hd (nsq_pos hc)
        linarith
    exact (mul_pos_iff_of_pos_left hq).mp h1

theorem hPosDef_iff (V : HMat) : hPosDef V = true ↔ PosDef V := by
  rw [posDef_iff_schur, form2_pos_iff]
  unfold hPosDef
  simp only [decide_eq_true_eq]
  constructor
  · rintro ⟨h0, h2, h3⟩
    refine ⟨h0, ?_, ?_⟩
    · simp only [tau]
      have : V.m11 - nsq V.m01 / V.m00 = (V.m00 * V.m11 - nsq V.m01) / V.m00 := by field_simp
      rw [this]; exact div_pos h2 h0
    · refine lt_of_lt_of_eq (div_pos h3 h0) ?_
      simp only [tau, nsq, mulConj]
      field_simp
      ring
  · rintro ⟨h0, h2, h3⟩
    refine ⟨h0, ?_, ?_⟩
    · simp only [tau] at h2
      have : V.m00 * V.m11 - nsq V.m01 = V.m00 * (V.m11 - nsq V.m01 / V.m00) := by field_simp
      rw [this]; exact mul_pos h0 h2
    · refine lt_of_lt_of_eq (mul_pos h0 h3) ?_
      simp only [tau, nsq, mulConj]
      field_simp
      ring

theorem det_toMatrix (V : HMat) : (toMatrix V).det = (hDet V : ℂ) := by
  simp only [toMatrix, Matrix.det_fin_three, hDet, nsq]
  apply Complex.ext <;> simp <;> ring

theorem toMatrix_inj {A B : HMat} (h : toMatrix A = toMatrix B) : A = B := by
  have e : ∀ i j, toMatrix A i j = toMatrix B i j := fun i j => by rw [h]
  have h00 := e 0 0
  have h11 := e 1 1
  have h22 := e 2 2
  have h01 := e 0 1
  have h02 := e 0 2
  have h12 := e 1 2
  simp [toMatrix] at h00 h11 h22 h01 h02 h12
  cases A; cases B; simp_all

/-- The rotated tensor in closed form. -/
theorem toMatrix_hRotate (A : HMat) (R : M3 ℝ) :
    toMatrix (hRotate A R) = ((rows R).map (fun x : ℝ => (x : ℂ)))ᵀ * toMatrix A * (rows R).map (fun x : ℝ => (x : ℂ)) := by
  ext i j
  fin_cases i <;> fin_cases j <;>
    (simp only [Matrix.mul_apply, Fin.sum_univ_three, Matrix.transpose_apply, Matrix.map_apply, toMatrix, rows, hRotate,
      rotateMem, rotatePass, Function.update_self, Matrix.of_apply, Matrix.cons_val', Matrix.cons_val_zero,
      Matrix.cons_val_one, Matrix.cons_val, Fin.zero_eta, Fin.mk_one, Fin.reduceFinMk]
     apply Complex.ext <;> simp <;> ring)

theorem rows_swapRot (R : M3 ℝ) : rows (swapRot R) = (rows R)ᵀ := by
  ext i j
  fin_cases i <;> fin_cases j <;> simp [rows, swapRot]

/-- The quadratic form of a rotated tensor is the form of the tensor at the rotated vector. -/
theorem form_rotate (A : HMat) (R : M3 ℝ) (v : Fin 3 → ℂ) :
    star v ⬝ᵥ (toMatrix (hRotate A R) *ᵥ v) =
      star ((rows R).map (fun x : ℝ => (x : ℂ)) *ᵥ v) ⬝ᵥ (toMatrix A *ᵥ ((rows R).map (fun x : ℝ => (x : ℂ)) *ᵥ v)) := by
  rw [toMatrix_hRotate]
  have hs : star ((rows R).map (fun x : ℝ => (x : ℂ)) *ᵥ v) = star v ᵥ* ((rows R).map (fun x : ℝ => (x : ℂ)))ᵀ := by
    rw [Matrix.star_mulVec]
    congr 1
    ext i j
    simp
  rw [hs, ← Matrix.mulVec_mulVec, ← Matrix.mulVec_mulVec, Matrix.dotProduct_mulVec]

theorem map_ofReal_mul (A B : Matrix (Fin 3) (Fin 3) ℝ) :
    (A * B).map (fun x : ℝ => (x : ℂ)) = A.map (fun x : ℝ => (x : ℂ)) * B.map (fun x : ℝ => (x : ℂ)) := by
  ext i j
  simp [Matrix.mul_apply]

theorem map_ofReal_one : (1 : Matrix (Fin 3) (Fin 3) ℝ).map (fun x : ℝ => (x : ℂ)) = 1 := by
  ext i j
  by_cases h : i = j
  · subst h; simp
  · simp [h]

theorem posDef_rotate {A : HMat} (h : PosDef A) {R : M3 ℝ} (hR : (rows R)ᵀ * rows R = 1) : PosDef (hRotate A R) := by
  intro v hv
  rw [form_rotate]
  apply h
  intro h0
  apply hv
  have h1 : ((rows R).map (fun x : ℝ => (x : ℂ)))ᵀ *ᵥ ((rows R).map (fun x : ℝ => (x : ℂ)) *ᵥ v) = v := by
    rw [Matrix.mulVec_mulVec, ← Matrix.transpose_map, ← map_ofReal_mul, hR, map_ofReal_one, Matrix.one_mulVec]
  rw [← h1, h0]
  simp

/-- `τ⁻¹` undoes `τ`. -/
theorem untau_tau (e : HMat) (h : e.m00 ≠ 0) : untau (tau e) = e := by
  ext
  · simp [untau, tau]
  all_goals simp only [untau, tau, nsq, mulConj]
  · field_simp; ring
  · field_simp; ring
  all_goals (apply Complex.ext <;> simp only <;> field_simp <;> ring)

/-- `τ` undoes `τ⁻¹`. -/
theorem tau_untau (e : HMat) (h : e.m00 ≠ 0) : tau (untau e) = e := by
  ext
  · simp [untau, tau]
  all_goals simp only [untau, tau, nsq, mulConj]
  · field_simp; ring
  · field_simp; ring
  all_goals (apply Complex.ext <;> simp only <;> field_simp <;> ring)

/-- The set of `τ` images of positive definite tensors. -/
def TauPos (d : HMat) : Prop := d.m00 < 0 ∧ ∀ b c : ℂ, (b ≠ 0 ∨ c ≠ 0) → 0 < form2 d.m11 d.m22 d.m12 b c

theorem tauPos_tau {e : HMat} (h : PosDef e) : TauPos (tau e) := by
  obtain ⟨h0, h1⟩ := (posDef_iff_schur e).mp h
  refine ⟨?_, h1⟩
  simp only [tau]
  exact div_neg_of_neg_of_pos (by norm_num) h0

theorem posDef_untau {d : HMat} (h : TauPos d) : PosDef (untau d) := by
  rw [posDef_iff_schur, tau_untau d h.1.ne]
  refine ⟨?_, h.2⟩
  simp only [untau]
  exact div_pos_of_neg_of_neg (by norm_num) h.1

theorem tauPos_hAdd {a b : HMat} (ha : TauPos a) (hb : TauPos b) : TauPos (hAdd a b) := by
  refine ⟨add_neg ha.1 hb.1, fun u v h => ?_⟩
  have h1 := ha.2 u v h
  have h2 := hb.2 u v h
  have : form2 (hAdd a b).m11 (hAdd a b).m22 (hAdd a b).m12 u v = form2 a.m11 a.m22 a.m12 u v + form2 b.m11 b.m22 b.m12 u v := by
    simp only [form2, hAdd]; ring
  rw [this]; exact add_pos h1 h2

theorem tauPos_hScale {a : HMat} (ha : TauPos a) {t : ℝ} (ht : 0 < t) : TauPos (hScale t a) := by
  refine ⟨mul_neg_of_neg_of_pos ha.1 ht, fun u v h => ?_⟩
  have : form2 (hScale t a).m11 (hScale t a).m22 (hScale t a).m12 u v = form2 a.m11 a.m22 a.m12 u v * t := by
    simp only [form2, hScale]; ring
  rw [this]; exact mul_pos (ha.2 u v h) ht

theorem avg_eq (f : ℝ) (a b : HMat) : avg f a b = hAdd (hScale f a) (hScale (1 - f) b) := by
  unfold avg hAdd hScale
  ext
  · ring
  · ring
  · ring
  all_goals (apply Complex.ext <;> simp only <;> ring)

theorem hScale_zero (a : HMat) : hScale 0 a = hZero := by
  simp only [hScale, hZero, mul_zero]; congr

theorem hScale_one (a : HMat) : hScale 1 a = a := by
  simp [hScale]

theorem hAdd_zero (a : HMat) : hAdd a hZero = a := by
  simp [hAdd, hZero]

theorem zero_hAdd (a : HMat) : hAdd hZero a = a := by
  simp [hAdd, hZero]

theorem tauPos_avg {a b : HMat} (ha : TauPos a) (hb : TauPos b) {f : ℝ} (h0 : 0 ≤ f) (h1 : f ≤ 1) : TauPos (avg f a b) := by
  rw [avg_eq]
  rcases h0.lt_or_eq with h | h
  · rcases h1.lt_or_eq with h' | h'
    · exact tauPos_hAdd (tauPos_hScale ha h) (tauPos_hScale hb (by linarith))
    · subst h'
      rw [sub_self, hScale_zero, hAdd_zero, hScale_one]; exact ha
  · subst h
    rw [hScale_zero, zero_hAdd, sub_zero, hScale_one]; exact hb

/-- The columns of `maxwell_rotation_matrix` are orthonormal. -/
theorem rotation_orthonormal {n : V3 ℝ} (h : Spec.Unit n) : (rows (rotationMatrix n))ᵀ * rows (rotationMatrix n) = 1 := by
  classical
  unfold Spec.Unit at h
  unfold rotationMatrix
  generalize hc : (if |n.x| > 1 / 100 ∨ |n.y| > 1 / 100 then (⟨n.y, -n.x, 0⟩ : V3 ℝ) else ⟨0, -n.z, n.y⟩) = c
  dsimp only
  have hperp : c.x * n.x + c.y * n.y + c.z * n.z = 0 := by
    subst hc; split <;> simp <;> ring
  have hpos : 0 < c.x * c.x + c.y * c.y + c.z * c.z := by
    subst hc
    split
    · rename_i h1
      have : 0 < n.x ^ 2 + n.y ^ 2 := by
        rcases h1 with h1 | h1
        · have : n.x ≠ 0 := by intro h0; rw [h0] at h1; norm_num at h1
          positivity
        · have : n.y ≠ 0 := by intro h0; rw [h0] at h1; norm_num at h1
          positivity
      simp only; nlinarith
    · rename_i h1
      push Not at h1
      have h2 : n.x ^ 2 ≤ (1 / 100) ^ 2 := sq_le_sq' (by linarith [neg_abs_le n.x]) (by linarith [le_abs_self n.x])
      simp only; nlinarith
  have hs : Real.sqrt (c.x * c.x + c.y * c.y + c.z * c.z) ≠ 0 := (Real.sqrt_pos.mpr hpos).ne'
  have hsq := Real.mul_self_sqrt hpos.le
  generalize Real.sqrt (c.x * c.x + c.y * c.y + c.z * c.z) = s at hs hsq ⊢
  have h22 : c.x * (1 / s) * (c.x * (1 / s)) + c.y * (1 / s) * (c.y * (1 / s)) + c.z * (1 / s) * (c.z * (1 / s)) = 1 := by
    field_simp
    nlinarith
  have h02 : n.x * (c.x * (1 / s)) + n.y * (c.y * (1 / s)) + n.z * (c.z * (1 / s)) = 0 := by
    have : n.x * (c.x * (1 / s)) + n.y * (c.y * (1 / s)) + n.z * (c.z * (1 / s)) =
      (c.x * n.x + c.y * n.y + c.z * n.z) * (1 / s) := by ring
    rw [this, hperp, zero_mul]
  generalize c.x * (1 / s) = u at h22 h02 ⊢
  generalize c.y * (1 / s) = v at h22 h02 ⊢
  generalize c.z * (1 / s) = w at h22 h02 ⊢
  have h11 : (v * n.z - w * n.y) * (v * n.z - w * n.y) + (w * n.x - u * n.z) * (w * n.x - u * n.z) +
      (u * n.y - v * n.x) * (u * n.y - v * n.x) = 1 := by
    have : (v * n.z - w * n.y) * (v * n.z - w * n.y) + (w * n.x - u * n.z) * (w * n.x - u * n.z) +
      (u * n.y - v * n.x) * (u * n.y - v * n.x) =
      (u * u + v * v + w * w) * (n.x ^ 2 + n.y ^ 2 + n.z ^ 2) - (n.x * u + n.y * v + n.z * w) ^ 2 := by ring
    rw [this, h22, h, h02]; ring
  ext i j
  fin_cases i <;> fin_cases j <;>
    simp [rows, Matrix.mul_apply, Fin.sum_univ_three] <;> first | linarith | (ring_nf; done) | nlinarith

end Mpb.Tensor

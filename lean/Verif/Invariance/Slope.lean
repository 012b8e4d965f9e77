import Verif.Invariance.Monotone
import Verif.Velocity.Props
import Mathlib.Algebra.QuadraticDiscriminant

/-! # C105: the bands are continuous in the wavevector, with slopes bounded by the largest speed of light in the structure -/

namespace Mpb.Invariance
open Mpb.Maxwell Mpb.Maxwell.Spec Spec MinMax
open Matrix
open scoped ComplexOrder

/-! ### Fields on the grid -/

theorem mulVec_lin (e : HMat) (s t : ℂ) (a b : V3 ℂ) : e.mulVec (V3.smul s a + V3.smul t b) = V3.smul s (e.mulVec a) + V3.smul t (e.mulVec b) := by
  ext <;> apply Complex.ext <;> simp [HMat.mulVec] <;> ring

theorem transform_lin (W : ℕ → ℕ → ℂ) (N : ℕ) (s t : ℂ) (a b : ℕ → V3 ℂ) (r : ℕ) :
    transform W N (fun j => V3.smul s (a j) + V3.smul t (b j)) r = V3.smul s (transform W N a r) + V3.smul t (transform W N b r) := by
  unfold transform
  ext <;> simp only [V3.add_x, V3.add_y, V3.add_z, V3.smul_x, V3.smul_y, V3.smul_z, Finset.mul_sum, ← Finset.sum_add_distrib] <;>
    exact Finset.sum_congr rfl fun j _ => by ring

theorem c2t_lin (k : KData) (s t : ℂ) (a b : V3 ℂ) (q : ℝ) :
    c2t k (V3.smul s a + V3.smul t b) q = (s * (c2t k a q).1 + t * (c2t k b q).1, s * (c2t k a q).2 + t * (c2t k b q).2) := by
  refine Prod.ext ?_ ?_ <;> apply Complex.ext <;> simp [c2t] <;> ring

/-- The transverse amplitudes of `M` times a field. -/
noncomputable def ampPairs (P : Problem) (M : ℕ → HMat) (b : ℕ → V3 ℂ) (G : ℕ) : ℂ × ℂ :=
  c2t (P.data.kpg G) (transform P.data.Wb P.data.N (fun r => (M r).mulVec (b r)) G) (1 / (P.data.N : ℝ))

theorem ampPairs_congr (P : Problem) (M : ℕ → HMat) {b c : ℕ → V3 ℂ} (h : ∀ r < P.data.N, b r = c r) (G : ℕ) : ampPairs P M b G = ampPairs P M c G := by
  unfold ampPairs
  rw [transform_congr fun r hr => by rw [h r hr]]

theorem gridForm_congr {N : ℕ} {M : ℕ → HMat} {a a' b b' : ℕ → V3 ℂ} (ha : ∀ r < N, a r = a' r) (hb : ∀ r < N, b r = b' r) :
    gridForm N M a b = gridForm N M a' b' := by
  unfold gridForm
  congr 1
  exact Finset.sum_congr rfl fun r hr => by rw [ha r (Finset.mem_range.1 hr), hb r (Finset.mem_range.1 hr)]

/-- The amplitudes are the adjoint of the field. -/
theorem inner_amp (P : Problem) (M : ℕ → HMat) (x : ℕ → ℂ × ℂ) (b : ℕ → V3 ℂ) :
    inner P.data.N x (ampPairs P M b) = gridForm P.data.N M (plainField P.data x) b := by
  have hc : transform P.data.Wf P.data.N (fun G => t2c (P.data.kpg G) (x G).1 (x G).2) = plainField P.data x := by
    simp only [C02_t2c]
    rfl
  unfold gridForm
  rw [← hc, ← herm_transform (data_adjoint P), Finset.mul_sum]
  unfold Spec.inner
  refine Finset.sum_congr rfl (fun G _ => ?_)
  have := C02_project_adjoint (P.data.kpg G) (x G) (transform P.data.Wb P.data.N (fun r => (M r).mulVec (b r)) G) (1 / (P.data.N : ℝ))
  unfold ampPairs
  rw [← this]
  push_cast
  ring

theorem plain_t2c (d : OpData) (x : ℕ → ℂ × ℂ) : transform d.Wf d.N (fun G => t2c (d.kpg G) (x G).1 (x G).2) = plainField d x := by
  simp only [C02_t2c]
  rfl

/-- Amplitudes of the field of given amplitudes. -/
theorem amp_plain (P : Problem) (x : ℕ → ℂ × ℂ) {G : ℕ} (hG : G < P.data.N) : ampPairs P (invMu P) (plainField P.data x) G = (muOp P).T x G := by
  show _ = bandMuinv P.data x G
  rw [bandMuinv_eq P _ hG]
  unfold ampPairs bandMu colOp
  rw [plain_t2c]

/-- From the amplitudes at another wavevector to the field `B`, from there to `H` and to the amplitudes at this wavevector. -/
noncomputable def convOp (P : Problem) (k' : V3 ℝ) : PairOp P.data.N where
  T x := ampPairs P (invMu P) (plainField ({ P with k := k' } : Problem).data x)
  linear x y s t G := by
    unfold ampPairs
    rw [show (fun r => (invMu P r).mulVec (plainField ({ P with k := k' } : Problem).data (fun G => (s * (x G).1 + t * (y G).1, s * (x G).2 + t * (y G).2)) r)) =
      fun r => V3.smul s ((invMu P r).mulVec (plainField ({ P with k := k' } : Problem).data x r)) +
        V3.smul t ((invMu P r).mulVec (plainField ({ P with k := k' } : Problem).data y r)) from funext fun r => by
          rw [← mulVec_lin]
          unfold plainField
          rw [← transform_lin]
          congr 2
          funext G
          ext <;> simp [cart] <;> ring,
      transform_lin, c2t_lin]
  loc x y h G _ := ampPairs_congr P _ (fun r _ => transform_congr (fun j hj => by rw [h j hj]) r) G

/-! ### Quadratic forms of fields -/

theorem herm_lin (e : HMat) (t : ℝ) (a b : V3 ℂ) : (herm (V3.smul (t : ℂ) a + b) (e.mulVec (V3.smul (t : ℂ) a + b))).re =
    (herm a (e.mulVec a)).re * (t * t) + 2 * (herm a (e.mulVec b)).re * t + (herm b (e.mulVec b)).re := by
  simp [herm, HMat.mulVec]
  ring

theorem gridForm_lin (N : ℕ) (M : ℕ → HMat) (t : ℝ) (a b : ℕ → V3 ℂ) :
    (gridForm N M (fun r => V3.smul (t : ℂ) (a r) + b r) (fun r => V3.smul (t : ℂ) (a r) + b r)).re =
      (gridForm N M a a).re * (t * t) + 2 * (gridForm N M a b).re * t + (gridForm N M b b).re := by
  unfold gridForm
  have : (1 / (N : ℂ)) = ((1 / (N : ℝ) : ℝ) : ℂ) := by push_cast; rfl
  rw [this, Complex.re_ofReal_mul, Complex.re_ofReal_mul, Complex.re_ofReal_mul, Complex.re_ofReal_mul, Complex.re_sum, Complex.re_sum, Complex.re_sum,
    Complex.re_sum]
  have h : ∀ r ∈ Finset.range N, (herm (V3.smul (t : ℂ) (a r) + b r) ((M r).mulVec (V3.smul (t : ℂ) (a r) + b r))).re =
      (herm (a r) ((M r).mulVec (a r))).re * (t * t) + 2 * (herm (a r) ((M r).mulVec (b r))).re * t + (herm (b r) ((M r).mulVec (b r))).re := by
    intro r _
    exact herm_lin _ _ _ _
  rw [Finset.sum_congr rfl h, Finset.sum_add_distrib, Finset.sum_add_distrib, ← Finset.sum_mul, ← Finset.sum_mul, ← Finset.mul_sum]
  ring

/-- The triangle inequality. -/
theorem gridForm_triangle {N : ℕ} {M : ℕ → HMat} (hM : ∀ r < N, PSD (M r)) {a b : ℕ → V3 ℂ} {p q m : ℝ} (hp : 0 ≤ p) (hq : 0 ≤ q) (hm : 0 ≤ m)
    (ha : (gridForm N M a a).re ≤ p ^ 2 * m) (hb : (gridForm N M b b).re ≤ q ^ 2 * m) :
    (gridForm N M (fun r => a r + b r) (fun r => a r + b r)).re ≤ (p + q) ^ 2 * m := by
  have h := gridForm_lin N M 1 a b
  have e : (fun r => V3.smul ((1 : ℝ) : ℂ) (a r) + b r) = fun r => a r + b r := by
    funext r; ext <;> simp
  rw [e] at h
  rw [h]
  have hd := discrim_le_zero (K := ℝ) (a := (gridForm N M a a).re) (b := 2 * (gridForm N M a b).re) (c := (gridForm N M b b).re) fun t => by
    rw [← gridForm_lin]
    exact gridForm_nonneg _ _ hM _
  unfold discrim at hd
  have ha0 := gridForm_nonneg N M hM a
  have hb0 := gridForm_nonneg N M hM b
  have h1 : (gridForm N M a a).re * (gridForm N M b b).re ≤ p ^ 2 * m * (q ^ 2 * m) := mul_le_mul ha hb hb0 (by positivity)
  have h2 : (gridForm N M a b).re ≤ p * q * m := by
    refine (le_abs_self _).trans (abs_le_of_sq_le_sq ?_ (by positivity))
    nlinarith
  nlinarith

theorem gridForm_bound {N : ℕ} {M M' : ℕ → HMat} {a b : ℕ → V3 ℂ} {c : ℝ}
    (h : ∀ r < N, (herm (a r) ((M r).mulVec (a r))).re ≤ c * (herm (b r) ((M' r).mulVec (b r))).re) :
    (gridForm N M a a).re ≤ c * (gridForm N M' b b).re := by
  unfold gridForm
  have : (1 / (N : ℂ)) = ((1 / (N : ℝ) : ℝ) : ℂ) := by push_cast; rfl
  rw [this, Complex.re_ofReal_mul, Complex.re_ofReal_mul, Complex.re_sum, Complex.re_sum, mul_left_comm, Finset.mul_sum (a := c)]
  exact mul_le_mul_of_nonneg_left (Finset.sum_le_sum fun r hr => h r (Finset.mem_range.1 hr)) (by positivity)

/-- A tensor between 0 and `c` is not below its square divided by `c`. -/
theorem herm_sq_le {e : HMat} {c : ℝ} (hc : 0 < c) (h0 : PSD e) (h1 : ∀ v : V3 ℂ, (herm v (e.mulVec v)).re ≤ c * (herm v v).re) (v : V3 ℂ) :
    (herm (e.mulVec v) (e.mulVec v)).re ≤ c * (herm v (e.mulVec v)).re := by
  have h := h0 (V3.smul ((-(1 / c) : ℝ) : ℂ) (e.mulVec v) + v)
  rw [herm_lin] at h
  have h2 := h1 (e.mulVec v)
  set p := (herm (e.mulVec v) (e.mulVec (e.mulVec v))).re
  set q := (herm (e.mulVec v) (e.mulVec v)).re
  set m := (herm v (e.mulVec v)).re
  have h3 : p * (1 / c) ≤ q := by
    rw [mul_one_div, div_le_iff₀ hc]
    linarith
  have h4 : p * (-(1 / c) * -(1 / c)) ≤ q * (1 / c) := by
    have := mul_le_mul_of_nonneg_right h3 (by positivity : 0 ≤ 1 / c)
    linarith
  have h5 : q * (1 / c) ≤ m := by linarith
  rw [mul_one_div, div_le_iff₀ hc] at h5
  linarith

theorem cross_sq_le (κ : V3 ℝ) (v : V3 ℂ) : (herm (V3.cross (toC κ) v) (V3.cross (toC κ) v)).re ≤ V3.dot κ κ * (herm v v).re := by
  obtain ⟨x, y, z⟩ := κ
  obtain ⟨⟨a, a'⟩, ⟨b, b'⟩, ⟨c, c'⟩⟩ := v
  simp [herm, V3.cross, toC, V3.dot]
  nlinarith [sq_nonneg (x * a + y * b + z * c), sq_nonneg (x * a' + y * b' + z * c')]

theorem scalar_herm (c : ℝ) (v : V3 ℂ) : (herm v ((⟨c, c, c, 0, 0, 0⟩ : HMat).mulVec v)).re = c * (herm v v).re := by
  simp [herm, HMat.mulVec]
  ring

/-! ### The curl -/

theorem cross_c2t {K : V3 ℝ} {k : KData} (h : IsBasis K k) (a : V3 ℂ) (s : ℝ) : V3.cross (toC K) (cart k (c2t k a s)) = V3.smul (s : ℂ) (V3.cross (toC K) a) := by
  have e := C02_curl_t2c K k h (c2t k a s).1 (c2t k a s).2
  rw [show cart k (c2t k a s) = cart k ((c2t k a s).1, (c2t k a s).2) from rfl, ← e, h.rh]
  obtain ⟨ax, ay, az⟩ := a
  ext <;> apply Complex.ext <;> simp [V3.cross, toC, crossT2c, c2t] <;> ring

theorem dft_symm (sgn : ℝ) (nx ny nz a b : ℕ) : dft sgn nx ny nz a b = dft sgn nx ny nz b a := by
  unfold dft
  congr 2
  ring_nf

theorem transform_back (P : Problem) (u : ℕ → V3 ℂ) {r : ℕ} (hr : r < P.data.N) :
    transform P.data.Wf P.data.N (transform P.data.Wb P.data.N u) r = V3.smul (P.data.N : ℂ) (u r) := by
  have hI : Target.Spec.InverseTransforms { P.data with Wf := P.data.Wb, Wb := P.data.Wf } := by
    intro G hG G' hG'
    show ∑ r ∈ Finset.range (P.nx * P.ny * P.nz), dft (-1) P.nx P.ny P.nz G r * dft 1 P.nx P.ny P.nz r G' = if G = G' then ((P.nx * P.ny * P.nz : ℕ) : ℂ) else 0
    have h := dft_orth (nx := P.nx) (ny := P.ny) (nz := P.nz) hG' hG
    rw [Finset.sum_congr rfl fun r _ => show dft (-1) P.nx P.ny P.nz G r * dft 1 P.nx P.ny P.nz r G' = dft 1 P.nx P.ny P.nz G' r * dft (-1) P.nx P.ny P.nz r G by
      rw [dft_symm (-1), dft_symm 1, mul_comm], h]
    simp only [eq_comm]
  exact Target.transform_inverse hI u hr

/-- Change of the curl of a field with the wavevector. -/
theorem curl_shift (P : Problem) (k' κ : V3 ℝ) {K K' : ℕ → V3 ℝ} (hK : ∀ G < P.data.N, IsBasis (K G) (P.data.kpg G))
    (hK' : ∀ G < P.data.N, IsBasis (K' G) (({ P with k := k' } : Problem).data.kpg G)) (hκ : ∀ G < P.data.N, K' G = K G + κ) (M : ℕ → HMat) (b : ℕ → V3 ℂ)
    {r : ℕ} (hr : r < P.data.N) :
    curlField ({ P with k := k' } : Problem).data K' (ampPairs { P with k := k' } M b) r =
      curlField P.data K (ampPairs P M b) r + V3.cross (toC κ) ((M r).mulVec (b r)) := by
  have hN : ((P.data.N : ℝ) : ℂ) ≠ 0 := by exact_mod_cast (by omega : P.data.N ≠ 0)
  set h := transform P.data.Wb P.data.N (fun r => (M r).mulVec (b r)) with hh
  have e1 : curlField ({ P with k := k' } : Problem).data K' (ampPairs { P with k := k' } M b) r =
      transform P.data.Wf P.data.N (fun G => V3.smul ((1 / (P.data.N : ℝ) : ℝ) : ℂ) (V3.cross (toC (K' G)) (h G))) r :=
    transform_congr (fun G hG => cross_c2t (hK' G hG) _ _) r
  have e2 : curlField P.data K (ampPairs P M b) r =
      transform P.data.Wf P.data.N (fun G => V3.smul ((1 / (P.data.N : ℝ) : ℝ) : ℂ) (V3.cross (toC (K G)) (h G))) r :=
    transform_congr (fun G hG => cross_c2t (hK G hG) _ _) r
  have e3 : V3.cross (toC κ) ((M r).mulVec (b r)) = transform P.data.Wf P.data.N (fun G => V3.smul ((1 / (P.data.N : ℝ) : ℝ) : ℂ) (V3.cross (toC κ) (h G))) r := by
    have h1 := transform_back P (fun r => (M r).mulVec (b r)) hr
    rw [← hh] at h1
    have h2 : transform P.data.Wf P.data.N (fun G => V3.smul ((1 / (P.data.N : ℝ) : ℝ) : ℂ) (V3.cross (toC κ) (h G))) r =
        V3.smul ((1 / (P.data.N : ℝ) : ℝ) : ℂ) (V3.cross (toC κ) (transform P.data.Wf P.data.N h r)) := by
      unfold transform
      ext <;> simp only [V3.cross, V3.smul, Finset.mul_sum, ← Finset.sum_sub_distrib] <;> exact Finset.sum_congr rfl fun j _ => by ring
    rw [h2, h1]
    push_cast at hN ⊢
    ext <;> simp [V3.cross] <;> field_simp
  rw [e1, e2, e3]
  have e4 : ∀ G < P.data.N, V3.smul ((1 / (P.data.N : ℝ) : ℝ) : ℂ) (V3.cross (toC (K' G)) (h G)) =
      V3.smul 1 (V3.smul ((1 / (P.data.N : ℝ) : ℝ) : ℂ) (V3.cross (toC (K G)) (h G))) +
        V3.smul 1 (V3.smul ((1 / (P.data.N : ℝ) : ℝ) : ℂ) (V3.cross (toC κ) (h G))) := by
    intro G hG
    rw [hκ G hG]
    ext <;> simp [V3.cross, toC] <;> ring
  rw [transform_congr e4, transform_lin]
  ext <;> simp

/-! ### Modes and the pencil -/

theorem modes_pencil (P : Problem) (hn : 0 < P.nfb) (hm : ∀ r < P.data.N, Tensor.Spec.PosDef (invMu P r)) (lam : ℝ) (n : ℕ) : ModesUpTo P.data lam n ↔
    ∃ f : Fin n → Fin (P.data.N * 2) → ℂ, LinearIndependent ℂ f ∧
      ∀ i, ∃ mu : ℝ, mu ≤ lam ∧ (curlOp P).mat.mulVec (f i) = (mu : ℂ) • (muOp P).mat⁻¹.mulVec (f i) := by
  set M := (muOp P).mat with hM
  set C := (curlOp P).mat with hC
  have pM : M.PosDef := muOp_posDef P hm
  have uM := (Matrix.isUnit_iff_isUnit_det _).1 pM.isUnit
  constructor
  · rintro ⟨X, hli, hX⟩
    set f : Fin n → Fin (P.data.N * 2) → ℂ := fun i => M.mulVec (firstOf _ (X i)) with hf
    have hMf : ∀ i, M⁻¹.mulVec (f i) = firstOf _ (X i) := by
      intro i
      rw [hf]
      dsimp only
      rw [mulVec_mulVec, Matrix.nonsing_inv_mul _ uM, one_mulVec]
    refine ⟨f, ?_, fun i => ?_⟩
    · rw [Fintype.linearIndependent_iff]
      intro c hc i
      refine hli c (fun a ha => ?_) i
      have h1 : M⁻¹.mulVec (∑ i, c i • f i) = 0 := by rw [hc, mulVec_zero]
      rw [mulVec_sum] at h1
      have h2 := congrFun h1 ⟨a, ha⟩
      rw [Finset.sum_apply] at h2
      rw [← h2.trans (Pi.zero_apply _)]
      refine Finset.sum_congr rfl fun i _ => ?_
      rw [Matrix.mulVec_smul, hMf]
      rfl
    · obtain ⟨mu, hle, hmode⟩ := hX i
      refine ⟨mu, hle, ?_⟩
      have h2 : M.mulVec (C.mulVec (f i)) = (mu : ℂ) • f i := ((isMode_matrix P hn mu (X i)).1 hmode).2
      have h3 := congrArg M⁻¹.mulVec h2
      rw [Matrix.mulVec_smul] at h3
      rw [← h3, mulVec_mulVec (C.mulVec (f i)), Matrix.nonsing_inv_mul _ uM, one_mulVec]
  · rintro ⟨f', hf', hev'⟩
    have hx' : ∀ i, M.mulVec (M⁻¹.mulVec (f' i)) = f' i := fun i => by
      rw [mulVec_mulVec, Matrix.mul_nonsing_inv _ uM, one_mulVec]
    refine ⟨fun i => padded (M⁻¹.mulVec (f' i)), fun c hc i => ?_, fun i => ?_⟩
    · refine Fintype.linearIndependent_iff.1 hf' c ?_ i
      have h1 : ∑ i, c i • M⁻¹.mulVec (f' i) = 0 := by
        funext a
        have := hc a a.2
        rw [Finset.sum_apply, Pi.zero_apply, ← this]
        refine Finset.sum_congr rfl fun i _ => ?_
        rw [Pi.smul_apply, smul_eq_mul, ← congrFun (firstOf_padded (M⁻¹.mulVec (f' i))) a]
        rfl
      have h2 := congrArg M.mulVec h1
      rw [mulVec_sum, mulVec_zero] at h2
      rw [← h2]
      exact Finset.sum_congr rfl fun i _ => by rw [Matrix.mulVec_smul, hx']
    · obtain ⟨mu, hle, he⟩ := hev' i
      refine ⟨mu, hle, (isMode_matrix P hn mu _).2 ?_⟩
      rw [firstOf_padded]
      refine ⟨fun h0 => ?_, ?_⟩
      · have h1 := congrArg M.mulVec h0
        exact hf'.ne_zero i (((hx' i).symm.trans h1).trans (mulVec_zero M))
      · show M.mulVec (C.mulVec (M.mulVec (M⁻¹.mulVec (f' i)))) = (mu : ℂ) • M.mulVec (M⁻¹.mulVec (f' i))
        rw [hx' i, he, Matrix.mulVec_smul, hx' i]

/-- The energy of a field is not below that of its transverse part. -/
theorem amp_minimal (P : Problem) (hm : ∀ r < P.data.N, Tensor.Spec.PosDef (invMu P r)) (b : ℕ → V3 ℂ) :
    form (muOp P).mat⁻¹ (firstOf (P.data.N * 2) (pairs.symm (ampPairs P (invMu P) b))) ≤ (gridForm P.data.N (invMu P) b b).re := by
  set M := (muOp P).mat with hM
  have pM : M.PosDef := muOp_posDef P hm
  have uM := (Matrix.isUnit_iff_isUnit_det _).1 pM.isUnit
  set z := firstOf (P.data.N * 2) (pairs.symm (ampPairs P (invMu P) b)) with hz
  set y := M⁻¹.mulVec z with hy
  have hMy : M.mulVec y = z := by rw [hy, mulVec_mulVec, Matrix.mul_nonsing_inv _ uM, one_mulVec]
  have h0 := gridForm_nonneg P.data.N (invMu P) (fun r hr v => herm_nonneg (hm r hr) v)
    (fun r => V3.smul ((-1 : ℝ) : ℂ) (plainField P.data (pairs (padded y)) r) + b r)
  rw [gridForm_lin, ← form_mu, ← inner_amp] at h0
  have e1 : inner P.data.N (pairs (padded y)) (ampPairs P (invMu P) b) = star y ⬝ᵥ z := by
    rw [hz]
    conv_rhs => rw [← firstOf_padded y, dot_firstOf, LinearEquiv.apply_symm_apply]
  have e2 : form M y = (star y ⬝ᵥ z).re := by unfold form; rw [hMy]
  have e3 : form M⁻¹ z = (star y ⬝ᵥ z).re := by
    unfold form
    rw [← hy, ← Complex.conj_re (star y ⬝ᵥ z)]
    congr 1
    exact star_dotProduct _ _
  rw [e1, ← hM, e2] at h0
  rw [e3]
  linarith

/-! ### The bound -/

/-- Vectors in reciprocal coordinates. -/
theorem wave_shift (P : Problem) (hd : P.Rm.det ≠ 0) (k' κ : V3 ℝ) (hκ : V3.dot P.Rm.c0 κ = k'.x - P.k.x ∧ V3.dot P.Rm.c1 κ = k'.y - P.k.y ∧
    V3.dot P.Rm.c2 κ = k'.z - P.k.z) (x y z : ℕ) : ({ P with k := k' } : Problem).wave x y z = P.wave x y z + κ := by
  have h := Velocity.mulVec_reciprocal (Velocity.reciprocal_of_inverse P.Rm hd) hd κ
  obtain ⟨h1, h2, h3⟩ := hκ
  have e : P.Rm.transpose.mulVec κ = ⟨k'.x - P.k.x, k'.y - P.k.y, k'.z - P.k.z⟩ := by
    ext <;> simp only [M3.mulVec, M3.transpose]
    · rw [← h1]; rfl
    · rw [← h2]; rfl
    · rw [← h3]; rfl
  rw [e] at h
  unfold Problem.wave
  conv_rhs => rw [← h]
  ext <;> simp [waveVec, M3.mulVec] <;> ring

theorem form_inv_apply {m : ℕ} {M : Matrix (Fin m) (Fin m) ℂ} (hM : M.PosDef) (x : Fin m → ℂ) : form M⁻¹ x = form M (M⁻¹.mulVec x) := by
  unfold form
  rw [mulVec_mulVec x M M⁻¹, Matrix.mul_nonsing_inv _ ((Matrix.isUnit_iff_isUnit_det _).1 hM.isUnit), one_mulVec, ← Complex.conj_re (star (M⁻¹.mulVec x) ⬝ᵥ x)]
  congr 1
  exact star_dotProduct _ _

/-- C105.  For every grid, lattice, permittivity and permeability: if the permittivity is nowhere below `a` and the permeability nowhere below
`b` (as Hermitian tensors), and there are `n` modes with frequencies up to `ω` at the wavevector `k`, there are `n` modes with frequencies up
to `ω + |κ|/√(a b)` at `k'`, `κ` being the Cartesian vector from `k` to `k'`.  So each frequency, counted with multiplicity from below, changes
by at most `|κ|` times the largest speed of light when the wavevector changes by `κ`: bands are continuous. -/
theorem C105_slope (P : Problem) (hd : P.Rm.det ≠ 0) (k' κ : V3 ℝ) (hκ : V3.dot P.Rm.c0 κ = k'.x - P.k.x ∧ V3.dot P.Rm.c1 κ = k'.y - P.k.y ∧
    V3.dot P.Rm.c2 κ = k'.z - P.k.z) {a b : ℝ} (ha : 0 < a) (hb : 0 < b)
    (hε : ∀ r < P.nx * P.ny * P.nz, Denser ⟨1 / a, 1 / a, 1 / a, 0, 0, 0⟩ (P.epsInv r))
    (hμ : ∀ r < P.nx * P.ny * P.nz, Denser ⟨1 / b, 1 / b, 1 / b, 0, 0, 0⟩ (invMu P r)) {ω : ℝ} (hω : 0 ≤ ω) (n : ℕ) (h : ModesUpTo P.data (ω ^ 2) n) :
    ModesUpTo ({ P with k := k' } : Problem).data ((ω + Real.sqrt (V3.dot κ κ) / Real.sqrt (a * b)) ^ 2) n := by
  rcases Nat.eq_zero_or_pos n with rfl | hn0
  · exact ⟨fun i => i.elim0, fun _ _ i => i.elim0, fun i => i.elim0⟩
  have hn : 0 < P.nfb := by
    by_contra hc
    obtain ⟨X, -, hX⟩ := h
    obtain ⟨mu, -, hmode⟩ := hX ⟨0, hn0⟩
    exact not_isMode _ (by show P.nfb = 0; omega) _ _ hmode
  have hε' := fun r (hr : r < P.data.N) => denser_inverse (hε r hr)
  have hμ' := fun r (hr : r < P.data.N) => denser_inverse (hμ r hr)
  have pμ : ∀ r < P.data.N, Tensor.Spec.PosDef (invMu P r) := fun r hr => (hμ' r hr).2.1
  obtain ⟨f, hf, hev⟩ := (modes_pencil P hn pμ _ _).1 h
  set P' : Problem := { P with k := k' } with hP'
  obtain ⟨K, hK, hKw⟩ := data_isBasis P
  obtain ⟨K', hK', hKw'⟩ := data_isBasis P'
  have hshift : ∀ G < P.data.N, K' G = K G + κ := by
    intro G hG
    obtain ⟨x, hx, y, hy, z, hz, rfl⟩ := index3 (nx := P.nx) (ny := P.ny) (nz := P.nz) hG
    rw [hKw x hx y hy z hz]
    exact (hKw' x hx y hy z hz).trans (wave_shift P hd k' κ hκ x y z)
  set M' : Matrix (Fin (P.data.N * 2)) (Fin (P.data.N * 2)) ℂ := (muOp P').mat with hM'
  have pM' : M'.PosDef := muOp_posDef P' pμ
  have uM' := (Matrix.isUnit_iff_isUnit_det _).1 pM'.isUnit
  have pM : (muOp P).mat.PosDef := muOp_posDef P pμ
  set δ := Real.sqrt (V3.dot κ κ) / Real.sqrt (a * b) with hδ
  have hδ0 : 0 ≤ δ := div_nonneg (Real.sqrt_nonneg _) (Real.sqrt_nonneg _)
  have hκ0 : 0 ≤ V3.dot κ κ := by unfold V3.dot; nlinarith [mul_self_nonneg κ.x, mul_self_nonneg κ.y, mul_self_nonneg κ.z]
  have hδ2 : δ ^ 2 = 1 / a * (V3.dot κ κ * (1 / b)) := by
    rw [hδ, div_pow, Real.sq_sqrt hκ0, Real.sq_sqrt (by positivity)]
    field_simp
  refine (modes_pencil P' hn pμ _ _).2 ?_
  refine count_conditions (m := P.data.N * 2) (curlOp_hermitian P') pM'.inv
    ((Submodule.span ℂ (Set.range f)).mkQ ∘ₗ (Matrix.toLin' (convOp P k').mat) ∘ₗ (Matrix.toLin' M'⁻¹)) ?_ ?_
  · have := Submodule.finrank_quotient_add_finrank (Submodule.span ℂ (Set.range f))
    rw [finrank_span_eq_card hf] at this
    simpa using this.le
  · intro x hx
    set y : Fin (P.data.N * 2) → ℂ := M'⁻¹.mulVec x with hy
    have hMy : M'.mulVec y = x := by rw [hy, mulVec_mulVec, Matrix.mul_nonsing_inv _ uM', one_mulVec]
    set B := plainField P'.data (pairs (padded y)) with hB
    have hz : (convOp P k').mat.mulVec y = firstOf (P.data.N * 2) (pairs.symm (ampPairs P (invMu P) B)) := by
      conv_lhs => rw [← firstOf_padded y]
      exact PairOp.mulVec _ _
    set m := (gridForm P.data.N (invMu P) B B).re with hm
    have hm0 : 0 ≤ m := gridForm_nonneg _ _ (fun r hr v => herm_nonneg (pμ r hr) v) _
    have em : form M'⁻¹ x = m := by
      have e1 : form M' y = m := form_mu P' y
      rw [← e1]
      exact form_inv_apply pM' x
    -- the same field at the first wavevector
    have hspan : (convOp P k').mat.mulVec y ∈ Submodule.span ℂ (Set.range f) := by
      rw [← Submodule.ker_mkQ (Submodule.span ℂ (Set.range f)), LinearMap.mem_ker]
      exact hx
    have hlow := low_span (curlOp_hermitian P) pM.inv f hev hspan
    rw [hz] at hlow
    have hmin := amp_minimal P pμ B
    rw [form_curl P hK] at hlow
    have hA : (gridForm P.data.N P.epsInv (curlField P.data K (ampPairs P (invMu P) B)) (curlField P.data K (ampPairs P (invMu P) B))).re ≤ ω ^ 2 * m := by
      have e : ∀ r < P.data.N, curlField P.data K (pairs (padded (firstOf (P.data.N * 2) (pairs.symm (ampPairs P (invMu P) B))))) r =
          curlField P.data K (ampPairs P (invMu P) B) r := by
        intro r _
        refine transform_congr (fun G hG => ?_) r
        rw [pairs_congr (fun a ha => padded_firstOf _ ha) hG, LinearEquiv.apply_symm_apply]
      rw [gridForm_congr e e] at hlow
      exact hlow.trans (mul_le_mul_of_nonneg_left hmin (by positivity))
    have hD : (gridForm P.data.N P.epsInv (fun r => V3.cross (toC κ) ((invMu P r).mulVec (B r))) (fun r => V3.cross (toC κ) ((invMu P r).mulVec (B r)))).re ≤
        δ ^ 2 * m := by
      refine gridForm_bound fun r hr => ?_
      have t1 := (hε' r hr).2.2 (V3.cross (toC κ) ((invMu P r).mulVec (B r)))
      rw [scalar_herm] at t1
      have t2 := cross_sq_le κ ((invMu P r).mulVec (B r))
      have t3 := herm_sq_le (c := 1 / b) (by positivity) (fun v => herm_nonneg (pμ r hr) v) (fun v => by
        have := (hμ' r hr).2.2 v
        rwa [scalar_herm] at this) (B r)
      rw [hδ2]
      calc _ ≤ _ := t1
        _ ≤ 1 / a * (V3.dot κ κ * (1 / b * (herm (B r) ((invMu P r).mulVec (B r))).re)) :=
          mul_le_mul_of_nonneg_left (t2.trans (mul_le_mul_of_nonneg_left t3 hκ0)) (by positivity)
        _ = _ := by ring
    have ht := gridForm_triangle (fun r hr v => herm_nonneg (hε' r hr).2.1 v) hω hδ0 hm0 hA hD
    have ec : form (curlOp P').mat x = (gridForm P.data.N P.epsInv (fun r => curlField P.data K (ampPairs P (invMu P) B) r + V3.cross (toC κ) ((invMu P r).mulVec (B r)))
        (fun r => curlField P.data K (ampPairs P (invMu P) B) r + V3.cross (toC κ) ((invMu P r).mulVec (B r)))).re := by
      refine (form_curl P' hK' x).trans ?_
      have e : ∀ r < P.data.N, curlField P'.data K' (pairs (padded x)) r =
          curlField P.data K (ampPairs P (invMu P) B) r + V3.cross (toC κ) ((invMu P r).mulVec (B r)) := by
        intro r hr
        refine Eq.trans ?_ (curl_shift P k' κ hK hK' hshift (invMu P) B hr)
        refine transform_congr (fun G hG => ?_) r
        have hx2 : pairs (padded x) G = ampPairs P' (invMu P') B G := by
          rw [amp_plain P' _ hG]
          have h1 : x = firstOf (P.data.N * 2) (pairs.symm ((muOp P').T (pairs (padded y)))) := by
            rw [← hMy]
            conv_lhs => rw [← firstOf_padded y]
            exact PairOp.mulVec (muOp P') (padded y)
          rw [h1, pairs_congr (N := P.data.N) (fun a ha => padded_firstOf _ ha) hG, LinearEquiv.apply_symm_apply]
        rw [hx2]
        rfl
      exact congrArg Complex.re (gridForm_congr e e)
    rw [em]
    exact ec.le.trans ht

/-- C105 (number of bands).  With positive definite tensors there are, for a grid of `N` points, `2 N` independent modes with frequencies up to
a large enough one, and never more; so the `n`-th frequency from below exists for `n ≤ 2 N`. -/
theorem C105_bands (P : Problem) (hn : 0 < P.nfb) (hμ : ∀ r < P.nx * P.ny * P.nz, Tensor.Spec.PosDef (invMu P r)) :
    (∃ lam, ModesUpTo P.data lam (P.nx * P.ny * P.nz * 2)) ∧ ∀ lam n, ModesUpTo P.data lam n → n ≤ P.nx * P.ny * P.nz * 2 := by
  constructor
  · obtain ⟨V, τ, hVB, hVA⟩ := pencil_diag (curlOp_hermitian P) (muOp_posDef P hμ).inv
    refine ⟨∑ j, |τ j|, (modes_pencil P hn hμ _ _).2 (count_conditions (F := PUnit.{1}) (curlOp_hermitian P) (muOp_posDef P hμ).inv 0
      (by rw [Module.finrank_zero_of_subsingleton, zero_add]; rfl) ?_)⟩
    intro x _
    have co : V.mulVec ((Vᴴ * (muOp P).mat⁻¹).mulVec x) = x := by rw [mulVec_mulVec, mul_eq_one_comm.mp hVB, one_mulVec]
    rw [← co, form_diag hVA, form_diag (hVB.trans one_diag), Finset.mul_sum]
    refine Finset.sum_le_sum fun j _ => ?_
    rw [one_mul]
    refine mul_le_mul_of_nonneg_right ?_ (Complex.normSq_nonneg _)
    exact (le_abs_self _).trans (Finset.single_le_sum (f := fun j => |τ j|) (fun _ _ => abs_nonneg _) (Finset.mem_univ j))
  · intro lam n h
    obtain ⟨f, hf, -⟩ := (modes_pencil P hn hμ _ _).1 h
    have h2 := hf.fintype_card_le_finrank
    rw [Fintype.card_fin, Module.finrank_fintype_fun_eq_card, Fintype.card_fin] at h2
    exact h2

/-- Non-vacuity: an empty grid of four points, wavevectors 1/4 and 1/2 along x.  The lowest frequency 1/4 goes to 1/2, as much as the bound allows. -/
example : (∀ r < 4 * 1 * 1, Denser ⟨1 / 1, 1 / 1, 1 / 1, 0, 0, 0⟩ ((vacuum 4 (1 / 4)).epsInv r)) ∧
    (∀ r < 4 * 1 * 1, Denser ⟨1 / 1, 1 / 1, 1 / 1, 0, 0, 0⟩ (invMu (vacuum 4 (1 / 4)) r)) ∧ ModesUpTo (vacuum 4 (1 / 4)).data ((1 / 4) ^ 2) 1 ∧
    ModesUpTo ({ vacuum 4 (1 / 4) with k := ⟨1 / 2, 0, 0⟩ } : Problem).data ((1 / 2) ^ 2) 1 := by
  have d : Denser ⟨1 / 1, 1 / 1, 1 / 1, 0, 0, 0⟩ ⟨1, 1, 1, 0, 0, 0⟩ := by
    have e : Tensor.Spec.toMatrix ⟨1, 1, 1, 0, 0, 0⟩ = 1 := by
      ext i j
      fin_cases i <;> fin_cases j <;> simp [Tensor.Spec.toMatrix]
    refine ⟨⟨1, 1, 1, 0, 0, 0⟩, ⟨1, 1, 1, 0, 0, 0⟩, ?_, ?_, ?_, fun _ => le_rfl⟩
    · norm_num [e]
    · norm_num [e]
    · refine (posDef_iff _).2 ?_
      rw [e]
      exact Matrix.PosDef.one
  have hm : ModesUpTo (vacuum 4 (1 / 4)).data ((1 / 4) ^ 2) 1 := by
    obtain ⟨X, hX⟩ := (vacuum_modes 4 (1 / 4) ((1 / 4) ^ 2)).2 ⟨0, by norm_num, by norm_num [harm]⟩
    refine ⟨fun _ => X, fun c hc i => ?_, fun _ => ⟨_, le_rfl, hX⟩⟩
    obtain rfl : i = 0 := Subsingleton.elim _ _
    by_contra h0
    have hz : firstOf ((vacuum 4 (1 / 4)).data.N * 2) X = 0 := by
      funext a
      have := hc a a.2
      rw [Fin.sum_univ_one] at this
      exact (mul_eq_zero.1 this).resolve_left h0
    exact ((isMode_matrix (vacuum 4 (1 / 4)) Nat.one_pos _ X).1 hX).1 hz
  refine ⟨fun _ _ => d, fun _ _ => d, hm, ?_⟩
  have h := C105_slope (vacuum 4 (1 / 4)) (by norm_num [vacuum, M3.det, M3.one]) ⟨1 / 2, 0, 0⟩ ⟨1 / 4, 0, 0⟩ (by norm_num [vacuum, M3.one, V3.dot]) one_pos one_pos
    (fun _ _ => d) (fun _ _ => d) (by norm_num : (0 : ℝ) ≤ 1 / 4) 1 hm
  have e : (1 / 4 + Real.sqrt (V3.dot (⟨1 / 4, 0, 0⟩ : V3 ℝ) ⟨1 / 4, 0, 0⟩) / Real.sqrt (1 * 1)) = 1 / 2 := by
    rw [show V3.dot (⟨1 / 4, 0, 0⟩ : V3 ℝ) ⟨1 / 4, 0, 0⟩ = (1 / 4) ^ 2 by norm_num [V3.dot], Real.sqrt_sq (by norm_num), mul_one, Real.sqrt_one]
    norm_num
  rwa [e] at h

/-- C104 (continuity).  If the second structure has nowhere less permittivity and permeability than the first, and nowhere more than `t` and `u`
times that, its squared frequencies lie, band by band, between those of the first divided by `t u` and those of the first: small changes of the
materials make small changes of the frequencies. -/
theorem C104_continuous {P P' : Problem} {t u : ℝ} (ht : 0 < t) (hu : 0 < u) (hmu : P.muInv = none → u = 1) (h : Loaded P P')
    (h' : Loaded P' (Spec.rescaled 1 t u P)) (lam : ℝ) (n : ℕ) :
    (ModesUpTo P.data lam n → ModesUpTo P'.data lam n) ∧ (ModesUpTo P'.data lam n → ModesUpTo P.data (lam * (t * u)) n) := by
  refine ⟨C104_monotone h lam n, fun hm => ?_⟩
  obtain ⟨X, hli, hX⟩ := C104_monotone h' lam n hm
  refine ⟨X, hli, fun i => ?_⟩
  obtain ⟨mu, hle, hmode⟩ := hX i
  refine ⟨mu * (t * u), mul_le_mul_of_nonneg_right hle (by positivity), ?_⟩
  rw [C95_units_partial P one_pos ht hu hmu, show mu * (t * u) / (1 ^ 2 * t * u) = mu by field_simp]
  exact hmode

/-- Non-vacuity: an empty grid, and the same filled with a material of permittivity 1.1. -/
example : Loaded (vacuum 4 (1 / 4)) (Spec.rescaled 1 1.1 1 (vacuum 4 (1 / 4))) ∧
    Loaded (Spec.rescaled 1 1.1 1 (vacuum 4 (1 / 4))) (Spec.rescaled 1 1.2 1 (vacuum 4 (1 / 4))) := by
  have d : ∀ a b : ℝ, 0 < a → a ≤ b → Denser (times (1 / a) ⟨1, 1, 1, 0, 0, 0⟩) (times (1 / b) ⟨1, 1, 1, 0, 0, 0⟩) := by
    intro a b ha hab
    have ha0 : (a : ℂ) ≠ 0 := by exact_mod_cast (by linarith : a ≠ 0)
    have hb0 : (b : ℂ) ≠ 0 := by exact_mod_cast (by linarith : b ≠ 0)
    have hform : ∀ (a : ℝ) (v : Fin 3 → ℂ), (star v ⬝ᵥ (Tensor.Spec.toMatrix ⟨a, a, a, 0, 0, 0⟩).mulVec v).re =
        a * (Complex.normSq (v 0) + Complex.normSq (v 1) + Complex.normSq (v 2)) := by
      intro a v
      simp [Tensor.Spec.toMatrix, Matrix.mulVec, dotProduct, Fin.sum_univ_three, Complex.normSq_apply]
      ring
    refine ⟨⟨a, a, a, 0, 0, 0⟩, ⟨b, b, b, 0, 0, 0⟩, ?_, ?_, ?_, ?_⟩
    · ext i j
      fin_cases i <;> fin_cases j <;> simp [times, Tensor.Spec.toMatrix, Matrix.mul_apply, Fin.sum_univ_three, ha0]
    · ext i j
      fin_cases i <;> fin_cases j <;> simp [times, Tensor.Spec.toMatrix, Matrix.mul_apply, Fin.sum_univ_three, hb0]
    · intro v hv
      rw [hform]
      refine mul_pos ha ?_
      by_contra hc
      push Not at hc
      have h0 := Complex.normSq_nonneg (v 0)
      have h1 := Complex.normSq_nonneg (v 1)
      have h2 := Complex.normSq_nonneg (v 2)
      apply hv
      funext i
      fin_cases i
      · exact Complex.normSq_eq_zero.1 (show Complex.normSq (v 0) = 0 by linarith)
      · exact Complex.normSq_eq_zero.1 (show Complex.normSq (v 1) = 0 by linarith)
      · exact Complex.normSq_eq_zero.1 (show Complex.normSq (v 2) = 0 by linarith)
    · intro v
      rw [hform, hform]
      exact mul_le_mul_of_nonneg_right hab (add_nonneg (add_nonneg (Complex.normSq_nonneg _) (Complex.normSq_nonneg _)) (Complex.normSq_nonneg _))
  have one : ∀ i : HMat, times (1 / 1) i = i := by
    intro i
    simp [times]
  have d1 := d 1 1 one_pos le_rfl
  have d2 := d 1 1.1 one_pos (by norm_num)
  rw [one] at d1 d2
  have sc : scaled 1 (vacuum 4 (1 / 4)).Rm = (vacuum 4 (1 / 4)).Rm := by
    ext <;> simp [scaled]
  refine ⟨⟨rfl, rfl, rfl, rfl, ?_, rfl, fun r _ => ?_, fun r _ => ?_⟩, ⟨rfl, rfl, rfl, rfl, rfl, rfl, fun r _ => ?_, fun r _ => ?_⟩⟩
  · exact sc
  · exact d2
  · exact d1
  · exact d 1.1 1.2 (by norm_num) (by norm_num)
  · exact d1

end Mpb.Invariance

import Verif.Target.Props
import Mathlib.Analysis.Matrix.Order

/-! # Properties C78, C79: the preconditioners -/

namespace Mpb.Target

open Mpb.Maxwell Mpb.Mat Mpb.Maxwell.Spec Mpb.Target.Spec
open scoped ComplexOrder MatrixOrder

namespace Spec

/-- Linear in the band. -/
def Linear (M : (ℕ → ℂ × ℂ) → ℕ → ℂ × ℂ) : Prop := ∀ (x y : ℕ → ℂ × ℂ) (s t : ℂ) (G : ℕ),
  M (fun G => (s * (x G).1 + t * (y G).1, s * (x G).2 + t * (y G).2)) G =
    (s * (M x G).1 + t * (M y G).1, s * (M x G).2 + t * (M y G).2)

/-- The combination `Σ_j c_j x_j` of the first `p` bands. -/
noncomputable def comb (p : ℕ) (c : ℕ → ℂ) (x : ℕ → ℕ → ℂ × ℂ) : ℕ → ℂ × ℂ := fun G =>
  (∑ j ∈ Finset.range p, c j * (x j G).1, ∑ j ∈ Finset.range p, c j * (x j G).2)

/-- Band `b` of `X Sᴴ` for a row-major `p × p` array `S`. -/
noncomputable def mixed (p : ℕ) (S X : ℕ → ℂ) (b : ℕ) : ℕ → ℂ × ℂ := comb p (fun j => (starRingEnd ℂ) (S (b * p + j))) (band p X)

/-- The field `W [ -(k+G) × x / |k+G|² ]` of the approximately inverted curl, in position space (at `k+G = 0`: the field of `-x` turned by
a right angle in the stored basis). -/
noncomputable def invCurlField (d : OpData) (x : ℕ → ℂ × ℂ) : ℕ → V3 ℂ :=
  transform d.Wf d.N (fun G => crossinvT2c (d.kpg G) (x G).1 (x G).2)

end Spec

/-! ### `Xout = Xin YtY` -/

theorem load_apply (d : OpData) {p : ℕ} (hp : 0 < p) {xin xout : ℕ} (hne : xin ≠ xout) (S : SQ) (hS : S.p = p) (hSo : S.data.off = 0)
    (hSx : S.data.arr ≠ xout) (h : Heap) :
    ∃ h', emXeYS (bundle d p xout) (bundle d p xin) S true h = some h' ∧
      (∀ b < p, ∀ G < d.N, band p (h' xout) b G = mixed p (h S.data.arr) (h xin) b G) ∧
      (∀ a, d.N * 2 * p ≤ a → h' xout a = h xout a) ∧ (∀ k, k ≠ xout → h' k = h k) := by
  obtain ⟨h', e, h1, h2⟩ := C64_XeYS (bundle d p xout) (bundle d p xin) S true h hS rfl rfl (by simp only [bundle]; omega) hne hSx
  rw [if_pos rfl] at h1
  refine ⟨h', e, fun b hb G hG => ?_, fun a ha => ?_, fun k hk => ?_⟩
  · have val : ∀ c < 2, h' xout ((G * 2 + c) * p + b) =
        ∑ j ∈ Finset.range p, (starRingEnd ℂ) (h S.data.arr (b * p + j)) * h xin ((G * 2 + c) * p + j) := by
      intro c hc
      have hi : G * 2 + c < d.N * 2 := rowMajor_lt hG hc
      have := congrFun (congrFun h1 ⟨G * 2 + c, hi⟩) ⟨b, hb⟩
      rw [Matrix.mul_apply] at this
      simp only [Mat.Spec.emat, Mat.Spec.mat, Matrix.of_apply, Matrix.conjTranspose_apply, rd, bundle, Nat.zero_add, hSo] at this
      refine this.trans ?_
      rw [Finset.sum_range]
      refine Finset.sum_congr rfl (fun j _ => ?_)
      exact mul_comm _ _
    exact Prod.ext (val 0 (by omega)) (val 1 (by omega))
  · refine h2 xout a ?_
    rintro ⟨-, i, hi, j, hj, e⟩
    simp only [bundle] at hi hj e
    have : i * p + j < d.N * 2 * p := rowMajor_lt hi hj
    omega
  · funext a
    refine h2 k a ?_
    rintro ⟨hk', -⟩
    exact hk hk'

/-! ### Linear Hermitian operators -/

theorem linear_comb {M : (ℕ → ℂ × ℂ) → ℕ → ℂ × ℂ} (hM : Linear M) (c : ℕ → ℂ) (x : ℕ → ℕ → ℂ × ℂ) (G : ℕ) :
    ∀ p, M (comb p c x) G = comb p c (fun j => M (x j)) G := by
  intro p
  induction p with
  | zero =>
    have := hM (fun _ => (0, 0)) (fun _ => (0, 0)) 0 0 G
    simp only [mul_zero, add_zero, zero_mul] at this
    unfold comb
    simpa using this
  | succ p ih =>
    have e : comb (p + 1) c x = fun G => ((1 : ℂ) * (comb p c x G).1 + c p * (x p G).1, (1 : ℂ) * (comb p c x G).2 + c p * (x p G).2) := by
      funext G
      unfold comb
      simp only [Finset.sum_range_succ, one_mul]
    rw [e, hM, ih]
    unfold comb
    simp only [Finset.sum_range_succ, one_mul]

theorem inner_comb_right (N p : ℕ) (c : ℕ → ℂ) (x : ℕ → ℂ × ℂ) (y : ℕ → ℕ → ℂ × ℂ) :
    inner N x (comb p c y) = ∑ j ∈ Finset.range p, c j * inner N x (y j) := by
  unfold Maxwell.Spec.inner hermT comb
  simp only [Finset.mul_sum]
  rw [Finset.sum_comm, ]
  refine Finset.sum_congr rfl (fun G _ => ?_)
  rw [← Finset.sum_add_distrib]
  exact Finset.sum_congr rfl (fun j _ => by ring)

theorem inner_comb_left (N p : ℕ) (c : ℕ → ℂ) (x : ℕ → ℕ → ℂ × ℂ) (y : ℕ → ℂ × ℂ) :
    inner N (comb p c x) y = ∑ j ∈ Finset.range p, (starRingEnd ℂ) (c j) * inner N (x j) y := by
  rw [inner_symm, inner_comb_right, map_sum]
  exact Finset.sum_congr rfl (fun j _ => by rw [map_mul, ← inner_symm])

/-- C78 (downhill).  Let the preconditioned block be `P (X Sᴴ)`, band by band, with `P` linear and positive definite, and the matrix `S`
(the solver's `YtY`) positive definite.  If `X` (the gradient) is not zero, the sum over the bands of `⟨X_b | (K X)_b⟩` has a positive
real part: the preconditioned gradient is an ascent direction of the functional, its negative a descent direction. -/
theorem C78_downhill {N p : ℕ} {P : (ℕ → ℂ × ℂ) → ℕ → ℂ × ℂ} (hL : Linear P) (hP : PosDef N P)
    (S : ℕ → ℂ) (hS : (Matrix.of fun i j : Fin p => S (i * p + j)).PosDef) (X : ℕ → ℂ) (K : ℕ → ℕ → ℂ × ℂ)
    (hK : ∀ b < p, ∀ G < N, K b G = P (mixed p S X b) G) (hX : ∃ b < p, ∃ G < N, band p X b G ≠ (0, 0)) :
    0 < (∑ b ∈ Finset.range p, inner N (band p X b) (K b)).re := by
  obtain ⟨R, hR⟩ := CStarAlgebra.nonneg_iff_eq_star_mul_self.mp hS.posSemidef.nonneg
  rw [Matrix.star_eq_conjTranspose] at hR
  set r : ℕ → ℕ → ℂ := fun k b => if h : k < p ∧ b < p then R ⟨k, h.1⟩ ⟨b, h.2⟩ else 0 with hr
  have hSr : ∀ b < p, ∀ j < p, S (b * p + j) = ∑ k ∈ Finset.range p, (starRingEnd ℂ) (r k b) * r k j := by
    intro b hb j hj
    have := congrFun (congrFun hR ⟨b, hb⟩) ⟨j, hj⟩
    rw [Matrix.mul_apply] at this
    simp only [Matrix.of_apply, Matrix.conjTranspose_apply] at this
    rw [this, Finset.sum_range]
    refine Finset.sum_congr rfl (fun k _ => ?_)
    simp only [hr, hb, hj, k.2, and_self, dite_true]
    rfl
  set y : ℕ → ℕ → ℂ × ℂ := fun k => comb p (fun b => (starRingEnd ℂ) (r k b)) (band p X) with hy
  have main : ∑ b ∈ Finset.range p, inner N (band p X b) (K b) = ∑ k ∈ Finset.range p, inner N (y k) (P (y k)) := by
    have e1 : ∀ b ∈ Finset.range p, inner N (band p X b) (K b) =
        ∑ j ∈ Finset.range p, ∑ k ∈ Finset.range p, r k b * (starRingEnd ℂ) (r k j) * inner N (band p X b) (P (band p X j)) := by
      intro b hb
      rw [inner_congr_right (hK b (Finset.mem_range.1 hb)), inner_congr_right (y := P (mixed p S X b)) (y' := comb p _ (fun j => P (band p X j)))
        (fun G _ => linear_comb hL (fun j => (starRingEnd ℂ) (S (b * p + j))) (band p X) G p), inner_comb_right]
      refine Finset.sum_congr rfl (fun j hj => ?_)
      rw [hSr b (Finset.mem_range.1 hb) j (Finset.mem_range.1 hj), map_sum, Finset.sum_mul]
      refine Finset.sum_congr rfl (fun k _ => ?_)
      rw [map_mul, Complex.conj_conj]
    have e2 : ∀ k ∈ Finset.range p, inner N (y k) (P (y k)) =
        ∑ b ∈ Finset.range p, ∑ j ∈ Finset.range p, r k b * (starRingEnd ℂ) (r k j) * inner N (band p X b) (P (band p X j)) := by
      intro k _
      rw [inner_congr_right (y' := comb p _ (fun j => P (band p X j)))
        (fun G _ => linear_comb hL (fun b => (starRingEnd ℂ) (r k b)) (band p X) G p), hy, inner_comb_left]
      refine Finset.sum_congr rfl (fun b _ => ?_)
      rw [inner_comb_right, Finset.mul_sum, Complex.conj_conj]
      exact Finset.sum_congr rfl (fun j _ => by ring)
    rw [Finset.sum_congr rfl e1, Finset.sum_congr rfl e2]
    rw [Finset.sum_comm (s := Finset.range p) (t := Finset.range p) (f := fun k b => ∑ j ∈ Finset.range p,
      r k b * (starRingEnd ℂ) (r k j) * inner N (band p X b) (P (band p X j)))]
    refine Finset.sum_congr rfl (fun b _ => ?_)
    rw [Finset.sum_comm]
  have hz : ∀ x, (∀ G < N, x G = (0, 0)) → (inner N x (P x)).re = 0 := by
    intro x hx
    have : inner N x (P x) = 0 := by
      unfold Maxwell.Spec.inner hermT
      refine Finset.sum_eq_zero (fun G hG => ?_)
      rw [hx G (Finset.mem_range.1 hG)]
      simp
    rw [this]; rfl
  rw [main, Complex.re_sum]
  have hnn : ∀ k ∈ Finset.range p, 0 ≤ (inner N (y k) (P (y k))).re := by
    intro k _
    by_cases h0 : ∃ G < N, y k G ≠ (0, 0)
    · exact (hP _ h0).le
    · push Not at h0
      rw [hz _ h0]
  by_contra hcon
  have hall : ∀ k < p, ∀ G < N, y k G = (0, 0) := by
    intro k hk
    by_contra h0
    push Not at h0
    have := hP _ h0
    have := Finset.single_le_sum hnn (Finset.mem_range.2 hk)
    linarith
  obtain ⟨b, hb, G, hG, hne⟩ := hX
  -- every component of the block is in the kernel of the conjugate of `S`
  have ker : ∀ f : ℂ × ℂ → ℂ, (∀ k < p, ∑ j ∈ Finset.range p, (starRingEnd ℂ) (r k j) * f (band p X j G) = 0) → f (band p X b G) = 0 := by
    intro f hf
    set v : Fin p → ℂ := fun j => (starRingEnd ℂ) (f (band p X j G)) with hv
    have hmul : (Matrix.of fun i j : Fin p => S (i * p + j)).mulVec v = 0 := by
      have hRv : R.mulVec v = 0 := by
        funext k
        have := congrArg (starRingEnd ℂ) (hf k k.2)
        rw [map_sum, map_zero, Finset.sum_range] at this
        simp only [Matrix.mulVec, dotProduct, Pi.zero_apply]
        rw [← this]
        refine Finset.sum_congr rfl (fun j _ => ?_)
        rw [map_mul, Complex.conj_conj]
        simp only [hr, k.2, j.2, and_self, dite_true, hv]
      rw [hR, ← Matrix.mulVec_mulVec, hRv, Matrix.mulVec_zero]
    have hv0 : v = 0 := by
      by_contra hvne
      have := hS.dotProduct_mulVec_pos hvne
      rw [hmul] at this
      simp at this
    have := congrFun hv0 ⟨b, hb⟩
    simpa [hv] using this
  have h1 := ker Prod.fst (fun k hk => by
    have := congrArg Prod.fst (hall k hk G hG)
    simpa [hy, comb] using this)
  have h2 := ker Prod.snd (fun k hk => by
    have := congrArg Prod.snd (hall k hk G hG)
    simpa [hy, comb] using this)
  exact hne (Prod.ext h1 h2)

/-! ### The diagonal preconditioners -/

/-- Multiplication of the amplitudes of each planewave by a number. -/
noncomputable def bandDiag (f : ℕ → ℝ) (x : ℕ → ℂ × ℂ) : ℕ → ℂ × ℂ := fun G => ((f G : ℂ) * (x G).1, (f G : ℂ) * (x G).2)

theorem bandDiag_linear (f : ℕ → ℝ) : Linear (bandDiag f) := by
  intro x y s t G
  unfold bandDiag
  refine Prod.ext ?_ ?_ <;> ring

theorem bandDiag_hermitian (N : ℕ) (f : ℕ → ℝ) : Hermitian N (bandDiag f) := by
  intro x y
  unfold Maxwell.Spec.inner bandDiag hermT
  rw [map_sum]
  refine Finset.sum_congr rfl (fun G _ => ?_)
  simp only [map_add, map_mul, Complex.conj_conj, Complex.conj_ofReal]
  ring

theorem bandDiag_posDef {N : ℕ} {f : ℕ → ℝ} (hf : ∀ G < N, 0 < f G) : PosDef N (bandDiag f) := by
  intro x hx
  have e : (inner N x (bandDiag f x)).re = ∑ G ∈ Finset.range N, f G * (Complex.normSq (x G).1 + Complex.normSq (x G).2) := by
    unfold Maxwell.Spec.inner bandDiag hermT
    rw [Complex.re_sum]
    refine Finset.sum_congr rfl (fun G _ => ?_)
    have : (starRingEnd ℂ) (x G).1 * ((f G : ℂ) * (x G).1) + (starRingEnd ℂ) (x G).2 * ((f G : ℂ) * (x G).2) =
        ((f G * (Complex.normSq (x G).1 + Complex.normSq (x G).2) : ℝ) : ℂ) := by
      push_cast
      simp only [← Complex.mul_conj]
      ring
    rw [this, Complex.ofReal_re]
  rw [e]
  obtain ⟨G, hG, hne⟩ := hx
  refine Finset.sum_pos' (fun G hG => mul_nonneg (hf G (Finset.mem_range.1 hG)).le (add_nonneg (Complex.normSq_nonneg _) (Complex.normSq_nonneg _)))
    ⟨G, Finset.mem_range.2 hG, mul_pos (hf G hG) ?_⟩
  rcases Classical.em ((x G).1 = 0) with h0 | h0
  · have h1 : (x G).2 ≠ 0 := fun h1 => hne (Prod.ext h0 h1)
    have := Complex.normSq_pos.2 h1
    have := Complex.normSq_nonneg (x G).1
    linarith
  · have := Complex.normSq_pos.2 h0
    have := Complex.normSq_nonneg (x G).2
    linarith

theorem fixDenom_pos {x : ℝ} (hx : 0 ≤ x) : 0 < fixDenom x := by
  unfold fixDenom
  split_ifs with h
  · norm_num
  · exact lt_of_le_of_ne hx (Ne.symm h)

theorem band_congr_eq {p b G : ℕ} {X Y : ℕ → ℂ} {z : ℂ} (h : ∀ c < 2, X ((G * 2 + c) * p + b) = z * Y ((G * 2 + c) * p + b)) :
    band p X b G = (z * (band p Y b G).1, z * (band p Y b G).2) := Prod.ext (h 0 (by omega)) (h 1 (by omega))

theorem simple_band (N p : ℕ) (kpGn2 : ℕ → ℝ) (e : ℝ) (X : ℕ → ℂ) :
    (∀ b < p, ∀ G < N, band p (simplePrecondition N 2 p kpGn2 e X) b G = bandDiag (fun G => 1 / fixDenom (kpGn2 G * e)) (band p X b) G) ∧
    (∀ a, N * 2 * p ≤ a → simplePrecondition N 2 p kpGn2 e X a = X a) := by
  obtain ⟨h1, h2⟩ := foldl_update_spec (fun t : ℕ × ℕ × ℕ => (t.1 * 2 + t.2.1) * p + t.2.2)
    (fun t (v : ℂ) => (⟨1 / fixDenom (kpGn2 t.1 * e) * v.re, 1 / fixDenom (kpGn2 t.1 * e) * v.im⟩ : ℂ)) (loop3 N 2 p) X
    (by rw [loop3_map_addr]; exact List.nodup_range)
  refine ⟨fun b hb G hG => band_congr_eq fun c hc => ?_, fun a ha => h2 a ?_⟩
  · refine (h1 (G, c, b) (mem_loop3.2 ⟨hG, hc, hb⟩)).trans ?_
    apply Complex.ext <;> simp
  · rw [loop3_map_addr, List.mem_range]
    omega

theorem square_band (N p : ℕ) (kpGn2 : ℕ → ℝ) (e : ℝ) (X : ℕ → ℂ) :
    (∀ b < p, ∀ G < N, band p (squarePrecondition N 2 p kpGn2 e X) b G =
      bandDiag (fun G => (1 / fixDenom (kpGn2 G * e)) ^ 2) (band p X b) G) ∧
    (∀ a, N * 2 * p ≤ a → squarePrecondition N 2 p kpGn2 e X a = X a) := by
  obtain ⟨h1, h2⟩ := foldl_update_spec (fun t : ℕ × ℕ × ℕ => (t.1 * 2 + t.2.1) * p + t.2.2)
    (fun t (v : ℂ) => (⟨1 / fixDenom (kpGn2 t.1 * e * (kpGn2 t.1 * e)) * v.re, 1 / fixDenom (kpGn2 t.1 * e * (kpGn2 t.1 * e)) * v.im⟩ : ℂ))
    (loop3 N 2 p) X (by rw [loop3_map_addr]; exact List.nodup_range)
  refine ⟨fun b hb G hG => band_congr_eq fun c hc => ?_, fun a ha => h2 a ?_⟩
  · refine (h1 (G, c, b) (mem_loop3.2 ⟨hG, hc, hb⟩)).trans ?_
    have : 1 / fixDenom (kpGn2 G * e * (kpGn2 G * e)) = (1 / fixDenom (kpGn2 G * e)) ^ 2 := by
      unfold fixDenom
      by_cases h0 : kpGn2 G * e = 0
      · rw [if_pos h0, if_pos (by rw [h0]; ring)]; norm_num
      · rw [if_neg h0, if_neg (mul_ne_zero h0 h0)]; field_simp
    rw [this]
    apply Complex.ext <;> simp [← Complex.ofReal_pow, ← Complex.ofReal_inv]
  · rw [loop3_map_addr, List.mem_range]
    omega

/-- C78 (diagonal preconditioner).  For distinct arrays and a `p × p` matrix `YtY` it returns; every band of the result is a linear,
Hermitian, positive definite operator applied to that band of `Xin YtYᴴ`; nothing else is written. -/
theorem C78_simple (d : OpData) {p : ℕ} (hp : 0 < p) (kpGn2 : ℕ → ℝ) (hk : ∀ G < d.N, 0 ≤ kpGn2 G) (e : ℝ) (he : 0 < e) {xin xout : ℕ}
    (hne : xin ≠ xout) (S : SQ) (hS : S.p = p) (hSo : S.data.off = 0) (hSx : S.data.arr ≠ xout) (h : Heap) :
    ∃ P h', Linear P ∧ Hermitian d.N P ∧ PosDef d.N P ∧ preconditioner d kpGn2 e p xin xout S h = some h' ∧
      (∀ b < p, ∀ G < d.N, band p (h' xout) b G = P (mixed p (h S.data.arr) (h xin) b) G) ∧
      (∀ a, d.N * 2 * p ≤ a → h' xout a = h xout a) ∧ (∀ k, k ≠ xout → h' k = h k) := by
  obtain ⟨h1, e1, a1, a2, a3⟩ := load_apply d hp hne S hS hSo hSx h
  obtain ⟨b1, b2⟩ := simple_band d.N p kpGn2 e (h1 xout)
  refine ⟨bandDiag (fun G => 1 / fixDenom (kpGn2 G * e)), Function.update h1 xout (simplePrecondition d.N 2 p kpGn2 e (h1 xout)), bandDiag_linear _, bandDiag_hermitian _ _,
    bandDiag_posDef (fun G hG => one_div_pos.2 (fixDenom_pos (mul_nonneg (hk G hG) he.le))),
    by unfold preconditioner; rw [e1]; rfl, fun b hb G hG => ?_, fun a ha => ?_, fun k hk => ?_⟩
  · rw [Function.update_self, b1 b hb G hG]
    unfold bandDiag
    rw [a1 b hb G hG]
  · rw [Function.update_self, b2 a ha, a2 a ha]
  · rw [Function.update_of_ne hk, a3 k hk]

/-- C78 (diagonal preconditioner of the targeted solver). -/
theorem C78_target_simple (d : OpData) {p : ℕ} (hp : 0 < p) (kpGn2 : ℕ → ℝ) (hk : ∀ G < d.N, 0 ≤ kpGn2 G) (e : ℝ) (he : 0 < e)
    {xin xout : ℕ} (hne : xin ≠ xout) (S : SQ) (hS : S.p = p) (hSo : S.data.off = 0) (hSx : S.data.arr ≠ xout) (h : Heap) :
    ∃ P h', Linear P ∧ Hermitian d.N P ∧ PosDef d.N P ∧ targetPreconditioner d kpGn2 e p xin xout S h = some h' ∧
      (∀ b < p, ∀ G < d.N, band p (h' xout) b G = P (mixed p (h S.data.arr) (h xin) b) G) ∧
      (∀ a, d.N * 2 * p ≤ a → h' xout a = h xout a) ∧ (∀ k, k ≠ xout → h' k = h k) := by
  obtain ⟨h1, e1, a1, a2, a3⟩ := load_apply d hp hne S hS hSo hSx h
  obtain ⟨b1, b2⟩ := square_band d.N p kpGn2 e (h1 xout)
  refine ⟨bandDiag (fun G => (1 / fixDenom (kpGn2 G * e)) ^ 2), Function.update h1 xout (squarePrecondition d.N 2 p kpGn2 e (h1 xout)), bandDiag_linear _, bandDiag_hermitian _ _,
    bandDiag_posDef (fun G hG => pow_pos (one_div_pos.2 (fixDenom_pos (mul_nonneg (hk G hG) he.le))) 2),
    by unfold targetPreconditioner; rw [e1]; rfl, fun b hb G hG => ?_, fun a ha => ?_, fun k hk => ?_⟩
  · rw [Function.update_self, b1 b hb G hG]
    unfold bandDiag
    rw [a1 b hb G hG]
  · rw [Function.update_self, b2 a ha, a2 a ha]
  · rw [Function.update_of_ne hk, a3 k hk]

/-! ### The fancy preconditioner -/

theorem crossinv_adjoint (k : KData) (v : ℂ × ℂ) (a : V3 ℂ) (s : ℝ) :
    hermT v (crossinvC2t k a s) = -((s : ℂ) * herm (crossinvT2c k v.1 v.2) a) := by
  unfold hermT crossinvC2t crossinvT2c herm
  apply Complex.ext <;> simp <;> ring

theorem inner_inv {d : OpData} (hW : AdjointTransforms d) (x y : ℕ → ℂ × ℂ) :
    inner d.N x (bandInv d y) = gridForm d.N (fun r => epsOf (d.epsInv r)) (invCurlField d x) (invCurlField d y) := by
  unfold gridForm invCurlField
  rw [← herm_transform hW, Finset.mul_sum]
  unfold Maxwell.Spec.inner
  refine Finset.sum_congr rfl (fun G _ => ?_)
  unfold bandInv colOp
  rw [crossinv_adjoint]
  push_cast
  ring

theorem bandInv_linear (d : OpData) : Linear (bandInv d) := by
  intro x y s t G
  refine colOp_linear crossinvT2c crossinvC2t d _ _ s t (fun k x y x' y' => ?_) (fun k a b => ?_) x y G
  · ext <;> apply Complex.ext <;> simp [crossinvT2c] <;> ring
  · refine Prod.ext ?_ ?_ <;> apply Complex.ext <;> simp [crossinvC2t] <;> ring

theorem bandInv_hermitian {d : OpData} (hW : AdjointTransforms d) : Hermitian d.N (bandInv d) := by
  intro x y
  rw [inner_inv hW, inner_inv hW, ← gridForm_symm]

/-- The transform to position space followed by the one back, times 1/N. -/
theorem transform_inverse {d : OpData} (hI : InverseTransforms d) (u : ℕ → V3 ℂ) {G : ℕ} (hG : G < d.N) :
    transform d.Wb d.N (transform d.Wf d.N u) G = V3.smul (d.N : ℂ) (u G) := by
  have key : ∀ f : V3 ℂ → ℂ, ∑ r ∈ Finset.range d.N, d.Wb G r * ∑ j ∈ Finset.range d.N, d.Wf r j * f (u j) = (d.N : ℂ) * f (u G) := by
    intro f
    simp only [Finset.mul_sum]
    rw [Finset.sum_comm]
    have : ∀ j ∈ Finset.range d.N, ∑ r ∈ Finset.range d.N, d.Wb G r * (d.Wf r j * f (u j)) = (if G = j then (d.N : ℂ) else 0) * f (u j) := by
      intro j hj
      rw [← hI G hG j (Finset.mem_range.1 hj), Finset.sum_mul]
      exact Finset.sum_congr rfl (fun r _ => by ring)
    rw [Finset.sum_congr rfl this]
    simp only [ite_mul, zero_mul]
    rw [Finset.sum_ite_eq, if_pos (Finset.mem_range.2 hG)]
  unfold transform
  ext
  · exact key V3.x
  · exact key V3.y
  · exact key V3.z

theorem crossinvT2c_eq_zero {K : V3 ℝ} {k : KData} (h : IsBasis K k) {v0 v1 : ℂ} (h0 : crossinvT2c k v0 v1 = 0) : v0 = 0 ∧ v1 = 0 := by
  obtain ⟨-, hk2, mm, nn, mn, -, -, rh⟩ := h
  have hd : -1 / fixDenom k.kmag ≠ 0 := div_ne_zero (by norm_num) (C03_denominator_nonzero _)
  have hx := congrArg V3.x h0
  have hy := congrArg V3.y h0
  have hz := congrArg V3.z h0
  simp only [crossinvT2c, V3.zero_x, V3.zero_y, V3.zero_z, Complex.ext_iff, Complex.zero_re, Complex.zero_im, mul_eq_zero, hd, or_false] at hx hy hz
  obtain ⟨x1, x2⟩ := hx
  obtain ⟨y1, y2⟩ := hy
  obtain ⟨z1, z2⟩ := hz
  refine ⟨Complex.ext ?_ ?_, Complex.ext ?_ ?_⟩ <;> simp only [Complex.zero_re, Complex.zero_im]
  · linear_combination k.n.x * x1 + k.n.y * y1 + k.n.z * z1 - v0.re * nn + v1.re * mn
  · linear_combination k.n.x * x2 + k.n.y * y2 + k.n.z * z2 - v0.im * nn + v1.im * mn
  · linear_combination -(k.m.x * x1 + k.m.y * y1 + k.m.z * z1) - v1.re * mm + v0.re * mn
  · linear_combination -(k.m.x * x2 + k.m.y * y2 + k.m.z * z2) - v1.im * mm + v0.im * mn

theorem bandInv_posDef {d : OpData} (hW : AdjointTransforms d) (hI : InverseTransforms d) {K : ℕ → V3 ℝ}
    (hK : ∀ G < d.N, IsBasis (K G) (d.kpg G)) (he : ∀ r < d.N, 0 < (d.epsInv r).m00 + (d.epsInv r).m11 + (d.epsInv r).m22) :
    PosDef d.N (bandInv d) := by
  intro x hx
  obtain ⟨G, hG, hne⟩ := hx
  have hN : 0 < d.N := by omega
  have e : (inner d.N x (bandInv d x)).re = ∑ r ∈ Finset.range d.N, (1 / (d.N : ℝ)) * (3 / ((d.epsInv r).m00 + (d.epsInv r).m11 + (d.epsInv r).m22) *
      (Complex.normSq (invCurlField d x r).x + Complex.normSq (invCurlField d x r).y + Complex.normSq (invCurlField d x r).z)) := by
    rw [inner_inv hW]
    unfold gridForm
    have : (1 / (d.N : ℂ)) = ((1 / (d.N : ℝ) : ℝ) : ℂ) := by push_cast; rfl
    rw [this, Complex.re_ofReal_mul, Complex.re_sum, Finset.mul_sum]
    refine Finset.sum_congr rfl (fun r _ => ?_)
    congr 1
    simp [herm, epsOf, HMat.mulVec, Complex.normSq_apply]
    ring
  rw [e]
  have hpos : ∀ r ∈ Finset.range d.N, 0 ≤ (1 / (d.N : ℝ)) * (3 / ((d.epsInv r).m00 + (d.epsInv r).m11 + (d.epsInv r).m22) *
      (Complex.normSq (invCurlField d x r).x + Complex.normSq (invCurlField d x r).y + Complex.normSq (invCurlField d x r).z)) := by
    intro r hr
    have := he r (Finset.mem_range.1 hr)
    have h1 := Complex.normSq_nonneg (invCurlField d x r).x
    have h2 := Complex.normSq_nonneg (invCurlField d x r).y
    have h3 := Complex.normSq_nonneg (invCurlField d x r).z
    positivity
  have hnz : ∃ r < d.N, invCurlField d x r ≠ 0 := by
    by_contra hall
    push Not at hall
    have ht := transform_inverse hI (fun G => crossinvT2c (d.kpg G) (x G).1 (x G).2) hG
    have hz : transform d.Wb d.N (transform d.Wf d.N (fun G => crossinvT2c (d.kpg G) (x G).1 (x G).2)) G = 0 := by
      have key : ∀ f : V3 ℂ → ℂ, f 0 = 0 → ∑ r ∈ Finset.range d.N, d.Wb G r * f (invCurlField d x r) = 0 := fun f hf =>
        Finset.sum_eq_zero (fun r hr => by rw [hall r (Finset.mem_range.1 hr), hf, mul_zero])
      ext
      · exact key V3.x rfl
      · exact key V3.y rfl
      · exact key V3.z rfl
    rw [hz] at ht
    have hNc : (d.N : ℂ) ≠ 0 := by exact_mod_cast hN.ne'
    have h0 : crossinvT2c (d.kpg G) (x G).1 (x G).2 = 0 := by
      ext
      · exact (mul_eq_zero.1 (congrArg V3.x ht).symm).resolve_left hNc
      · exact (mul_eq_zero.1 (congrArg V3.y ht).symm).resolve_left hNc
      · exact (mul_eq_zero.1 (congrArg V3.z ht).symm).resolve_left hNc
    obtain ⟨z0, z1⟩ := crossinvT2c_eq_zero (hK G hG) h0
    exact hne (Prod.ext z0 z1)
  obtain ⟨r, hr, hrne⟩ := hnz
  refine Finset.sum_pos' hpos ⟨r, Finset.mem_range.2 hr, ?_⟩
  have h1 := Complex.normSq_nonneg (invCurlField d x r).x
  have h2 := Complex.normSq_nonneg (invCurlField d x r).y
  have h3 := Complex.normSq_nonneg (invCurlField d x r).z
  have hs : 0 < Complex.normSq (invCurlField d x r).x + Complex.normSq (invCurlField d x r).y + Complex.normSq (invCurlField d x r).z := by
    by_contra hc
    apply hrne
    ext
    · exact Complex.normSq_eq_zero.1 (by linarith)
    · exact Complex.normSq_eq_zero.1 (by linarith)
    · exact Complex.normSq_eq_zero.1 (by linarith)
  have := he r hr
  have hNr : (0 : ℝ) < d.N := by exact_mod_cast hN
  positivity

theorem bandInv_congr (d : OpData) {x y : ℕ → ℂ × ℂ} (h : ∀ G < d.N, x G = y G) (G : ℕ) : bandInv d x G = bandInv d y G :=
  colOp_congr _ _ _ _ _ h G

/-- C78 (fancy preconditioner).  Let the stored basis be right for the wavevectors `K` (C01), the FFT directions adjoint and inverse up to
the factor `N`, and the inverse dielectric tensors have positive traces.  For every number of bands and every batch size, for distinct
arrays, it returns; every band of the result is a linear, Hermitian, positive definite operator applied to that band of `Xin YtYᴴ`, also
at `k + G = 0`; nothing else is written. -/
theorem C78_fancy (d : OpData) (hn : 0 < d.nfb) (hW : AdjointTransforms d) (hI : InverseTransforms d) (K : ℕ → V3 ℝ)
    (hK : ∀ G < d.N, IsBasis (K G) (d.kpg G)) (he : ∀ r < d.N, 0 < (d.epsInv r).m00 + (d.epsInv r).m11 + (d.epsInv r).m22)
    {p : ℕ} (hp : 0 < p) (bufs : ℕ → (ℕ → ℂ) × (ℕ → ℂ)) {xin xout : ℕ}
    (hne : xin ≠ xout) (S : SQ) (hS : S.p = p) (hSo : S.data.off = 0) (hSx : S.data.arr ≠ xout) (h : Heap) :
    ∃ P h', Linear P ∧ Hermitian d.N P ∧ PosDef d.N P ∧ preconditioner2 d p bufs xin xout S h = some h' ∧
      (∀ b < p, ∀ G < d.N, band p (h' xout) b G = P (mixed p (h S.data.arr) (h xin) b) G) ∧
      (∀ a, d.N * 2 * p ≤ a → h' xout a = h xout a) ∧ (∀ k, k ≠ xout → h' k = h k) := by
  obtain ⟨h1, e1, a1, a2, a3⟩ := load_apply d hp hne S hS hSo hSx h
  obtain ⟨R, e2, b1, b2⟩ := invBands_apply d p hn bufs (h1 xout)
  refine ⟨bandInv d, Function.update h1 xout R, bandInv_linear d, bandInv_hermitian hW, bandInv_posDef hW hI hK he, ?_, fun b hb G hG => ?_, fun a ha => ?_, fun k hk => ?_⟩
  · unfold preconditioner2 loadXout
    rw [if_pos (Ne.symm hne), e1]
    dsimp only
    rw [e2]
    rfl
  · rw [Function.update_self, b1 b hb G hG]
    exact bandInv_congr d (fun G' hG' => a1 b hb G' hG') G
  · rw [Function.update_self, b2 a ha, a2 a ha]
  · rw [Function.update_of_ne hk, a3 k hk]

/-- The square of a Hermitian positive definite operator. -/
theorem square_props {N : ℕ} {P : (ℕ → ℂ × ℂ) → ℕ → ℂ × ℂ} (hL : Linear P) (hH : Hermitian N P) (hD : PosDef N P) :
    Linear (fun x => P (P x)) ∧ Hermitian N (fun x => P (P x)) ∧ PosDef N (fun x => P (P x)) := by
  have self : ∀ x y, inner N x (P y) = inner N (P x) y := fun x y => by rw [hH x y, ← inner_symm]
  refine ⟨fun x y s t G => ?_, fun x y => ?_, fun x hx => ?_⟩
  · dsimp only
    rw [show P (fun G => (s * (x G).1 + t * (y G).1, s * (x G).2 + t * (y G).2)) =
      fun G => (s * (P x G).1 + t * (P y G).1, s * (P x G).2 + t * (P y G).2) from funext (hL x y s t)]
    exact hL _ _ s t G
  · dsimp only
    rw [self, self y, ← inner_symm]
  · dsimp only
    rw [self, (inner_self_re _ _).1]
    have hne : ∃ G < N, P x G ≠ (0, 0) := by
      by_contra hall
      push Not at hall
      have h0 : inner N x (P x) = 0 := by
        unfold Maxwell.Spec.inner hermT
        refine Finset.sum_eq_zero (fun G hG => ?_)
        rw [hall G (Finset.mem_range.1 hG)]
        simp
      have := hD x hx
      rw [h0] at this
      simp at this
    have := bandDiag_posDef (N := N) (f := fun _ => 1) (fun _ _ => one_pos) (P x) hne
    have e : bandDiag (fun _ => 1) (P x) = P x := by funext G; simp [bandDiag]
    rw [e, (inner_self_re _ _).1] at this
    exact this

/-- C78 (fancy preconditioner of the targeted solver): the square of the former; the factor `YtY` is applied once. -/
theorem C78_target_fancy (d : OpData) (hn : 0 < d.nfb) (hW : AdjointTransforms d) (hI : InverseTransforms d) (K : ℕ → V3 ℝ)
    (hK : ∀ G < d.N, IsBasis (K G) (d.kpg G)) (he : ∀ r < d.N, 0 < (d.epsInv r).m00 + (d.epsInv r).m11 + (d.epsInv r).m22)
    {p : ℕ} (hp : 0 < p) (bufs bufs' : ℕ → (ℕ → ℂ) × (ℕ → ℂ)) {xin xout : ℕ}
    (hne : xin ≠ xout) (S : SQ) (hS : S.p = p) (hSo : S.data.off = 0) (hSx : S.data.arr ≠ xout) (h : Heap) :
    ∃ P h', Linear P ∧ Hermitian d.N P ∧ PosDef d.N P ∧ targetPreconditioner2 d p bufs bufs' xin xout S h = some h' ∧
      (∀ b < p, ∀ G < d.N, band p (h' xout) b G = P (mixed p (h S.data.arr) (h xin) b) G) ∧
      (∀ a, d.N * 2 * p ≤ a → h' xout a = h xout a) ∧ (∀ k, k ≠ xout → h' k = h k) := by
  obtain ⟨h1, e1, a1, a2, a3⟩ := load_apply d hp hne S hS hSo hSx h
  obtain ⟨R, e2, b1, b2⟩ := invBands_apply d p hn bufs (h1 xout)
  obtain ⟨R', e3, c1, c2⟩ := invBands_apply d p hn bufs' R
  obtain ⟨s1, s2, s3⟩ := square_props (bandInv_linear d) (bandInv_hermitian hW) (bandInv_posDef hW hI hK he)
  refine ⟨fun x => bandInv d (bandInv d x), Function.update (Function.update h1 xout R) xout R', s1, s2, s3, ?_, fun b hb G hG => ?_,
    fun a ha => ?_, fun k hk => ?_⟩
  · unfold targetPreconditioner2 preconditioner2 loadXout
    rw [if_pos (Ne.symm hne), e1]
    dsimp only
    rw [e2]
    simp only [Option.map_some, ne_eq, not_true_eq_false, if_false, Function.update_self]
    rw [e3]
    rfl
  · rw [Function.update_self, c1 b hb G hG]
    refine bandInv_congr d (fun G' hG' => ?_) G
    rw [b1 b hb G' hG']
    exact bandInv_congr d (fun G'' hG'' => a1 b hb G'' hG'') G'
  · rw [Function.update_self, c2 a ha, b2 a ha, a2 a ha]
  · rw [Function.update_of_ne hk, Function.update_of_ne hk, a3 k hk]

/-! ### C79: homogeneous media -/

theorem cross_twice {K : V3 ℝ} {k : KData} (h : IsBasis K k) (c s : ℝ) (v0 v1 : ℂ) :
    crossC2t k (V3.smul (c : ℂ) (crossT2c k v0 v1)) s = (((-c * s * k.kmag ^ 2 : ℝ) : ℂ) * v0, ((-c * s * k.kmag ^ 2 : ℝ) : ℂ) * v1) := by
  obtain ⟨-, -, mm, nn, mn, -, -, -⟩ := h
  refine Prod.ext ?_ ?_ <;> apply Complex.ext <;>
    simp only [crossC2t, crossT2c, V3.smul_x, V3.smul_y, V3.smul_z, Complex.mul_re, Complex.mul_im, Complex.ofReal_re, Complex.ofReal_im, zero_mul,
      sub_zero, add_zero]
  · linear_combination -(c * s * k.kmag ^ 2) * (v0.re * nn - v1.re * mn)
  · linear_combination -(c * s * k.kmag ^ 2) * (v0.im * nn - v1.im * mn)
  · linear_combination -(c * s * k.kmag ^ 2) * (v1.re * mm - v0.re * mn)
  · linear_combination -(c * s * k.kmag ^ 2) * (v1.im * mm - v0.im * mn)

theorem crossinv_twice {K : V3 ℝ} {k : KData} (h : IsBasis K k) (c s : ℝ) (v0 v1 : ℂ) :
    crossinvC2t k (V3.smul (c : ℂ) (crossinvT2c k v0 v1)) s =
      (((-c * s / fixDenom k.kmag ^ 2 : ℝ) : ℂ) * v0, ((-c * s / fixDenom k.kmag ^ 2 : ℝ) : ℂ) * v1) := by
  obtain ⟨-, -, mm, nn, mn, -, -, -⟩ := h
  have hd := C03_denominator_nonzero k.kmag
  refine Prod.ext ?_ ?_ <;> apply Complex.ext <;>
    simp only [crossinvC2t, crossinvT2c, V3.smul_x, V3.smul_y, V3.smul_z, Complex.mul_re, Complex.mul_im, Complex.ofReal_re, Complex.ofReal_im,
      zero_mul, sub_zero, add_zero] <;> field_simp
  · linear_combination -(c * s) * (v0.re * nn - v1.re * mn)
  · linear_combination -(c * s) * (v0.im * nn - v1.im * mn)
  · linear_combination -(c * s) * (v1.re * mm - v0.re * mn)
  · linear_combination -(c * s) * (v1.im * mm - v0.im * mn)

theorem homogeneous_chain {d : OpData} (hI : InverseTransforms d) {M : ℕ → HMat} {e : ℝ} (he : ∀ r < d.N, M r = ⟨e, e, e, 0, 0, 0⟩)
    (u : ℕ → V3 ℂ) {G : ℕ} (hG : G < d.N) :
    transform d.Wb d.N (fun r => (M r).mulVec (transform d.Wf d.N u r)) G = V3.smul ((d.N * e : ℝ) : ℂ) (u G) := by
  have e1 : transform d.Wb d.N (fun r => (M r).mulVec (transform d.Wf d.N u r)) G =
      V3.smul (e : ℂ) (transform d.Wb d.N (transform d.Wf d.N u) G) := by
    have key : ∀ f : V3 ℂ → ℂ, (∀ v, f ((⟨e, e, e, 0, 0, 0⟩ : HMat).mulVec v) = (e : ℂ) * f v) →
        ∑ r ∈ Finset.range d.N, d.Wb G r * f ((M r).mulVec (transform d.Wf d.N u r)) =
          (e : ℂ) * ∑ r ∈ Finset.range d.N, d.Wb G r * f (transform d.Wf d.N u r) := by
      intro f hf
      rw [Finset.mul_sum]
      refine Finset.sum_congr rfl (fun r hr => ?_)
      rw [he r (Finset.mem_range.1 hr), hf]
      ring
    ext
    · exact key V3.x (fun v => by apply Complex.ext <;> simp [HMat.mulVec])
    · exact key V3.y (fun v => by apply Complex.ext <;> simp [HMat.mulVec])
    · exact key V3.z (fun v => by apply Complex.ext <;> simp [HMat.mulVec])
  rw [e1, transform_inverse hI u hG]
  ext <;> simp <;> ring

/-- In a homogeneous isotropic medium without permeability the operator multiplies each planewave by `ε⁻¹ |k+G|²`. -/
theorem homogeneous_maxwell {d : OpData} (hI : InverseTransforms d) (hmu : d.muInv = none) {e : ℝ} (he : ∀ r < d.N, d.epsInv r = ⟨e, e, e, 0, 0, 0⟩)
    {K : ℕ → V3 ℝ} (hK : ∀ G < d.N, IsBasis (K G) (d.kpg G)) (x : ℕ → ℂ × ℂ) {G : ℕ} (hG : G < d.N) :
    bandMaxwell d x G = ((((e * V3.dot (K G) (K G) : ℝ)) : ℂ) * (x G).1, (((e * V3.dot (K G) (K G) : ℝ)) : ℂ) * (x G).2) := by
  unfold bandMaxwell bandOp colOp
  rw [hmu]
  dsimp only
  rw [homogeneous_chain hI (M := d.epsInv) he _ hG]
  have hN : (d.N : ℝ) ≠ 0 := by exact_mod_cast (by omega : d.N ≠ 0)
  rw [cross_twice (hK G hG)]
  have hk2 := (hK G hG).kmag_sq
  have : -(d.N * e) * (-1 / d.N) * (d.kpg G).kmag ^ 2 = e * V3.dot (K G) (K G) := by
    rw [hk2, V3.dot]
    field_simp
  rw [this]

/-- In a homogeneous isotropic medium the fancy preconditioner divides each planewave by `ε⁻¹ |k+G|²`. -/
theorem homogeneous_inv {d : OpData} (hI : InverseTransforms d) {e : ℝ} (he0 : e ≠ 0) (he : ∀ r < d.N, d.epsInv r = ⟨e, e, e, 0, 0, 0⟩)
    {K : ℕ → V3 ℝ} (hK : ∀ G < d.N, IsBasis (K G) (d.kpg G)) (h0 : ∀ G < d.N, K G ≠ 0) (x : ℕ → ℂ × ℂ) {G : ℕ} (hG : G < d.N) :
    bandInv d x G = ((((1 / (e * V3.dot (K G) (K G)) : ℝ)) : ℂ) * (x G).1, (((1 / (e * V3.dot (K G) (K G)) : ℝ)) : ℂ) * (x G).2) := by
  unfold bandInv colOp
  have heps : ∀ r < d.N, epsOf (d.epsInv r) = ⟨1 / e, 1 / e, 1 / e, 0, 0, 0⟩ := by
    intro r hr
    rw [he r hr, epsOf]
    have : 3 / (e + e + e) = 1 / e := by field_simp; norm_num
    simp only [this]
  rw [homogeneous_chain hI (M := fun r => epsOf (d.epsInv r)) heps _ hG]
  have hN : (d.N : ℝ) ≠ 0 := by exact_mod_cast (by omega : d.N ≠ 0)
  rw [crossinv_twice (hK G hG)]
  have hk2 := (hK G hG).kmag_sq
  have hk : (d.kpg G).kmag ≠ 0 := by
    intro hz
    apply h0 G hG
    rw [(hK G hG).rh, hz]
    ext <;> simp
  have : -(d.N * (1 / e)) * (-1 / d.N) / fixDenom (d.kpg G).kmag ^ 2 = 1 / (e * V3.dot (K G) (K G)) := by
    have hd : V3.dot (K G) (K G) = (d.kpg G).kmag ^ 2 := by rw [hk2, V3.dot]; ring
    rw [hd, fixDenom, if_neg hk]
    field_simp
  rw [this]

/-- C79.  In a homogeneous isotropic medium without permeability, when no `k + G` vanishes, the fancy preconditioner is the exact inverse of
the operator, on either side: run after the operator it restores the bands, and so does the operator after it.  The diagonal one, given
the average `ε⁻¹` and `|k+G|²`, does the same. -/
theorem C79_exact_inverse (d : OpData) (hn : 0 < d.nfb) (hI : InverseTransforms d) (hmu : d.muInv = none) {e : ℝ} (he0 : 0 < e)
    (he : ∀ r < d.N, d.epsInv r = ⟨e, e, e, 0, 0, 0⟩) (K : ℕ → V3 ℝ) (hK : ∀ G < d.N, IsBasis (K G) (d.kpg G)) (h0 : ∀ G < d.N, K G ≠ 0)
    (kpGn2 : ℕ → ℝ) (hk : ∀ G < d.N, kpGn2 G = V3.dot (K G) (K G)) (p : ℕ) (bufs : ℕ → ℕ → ℂ) (bufs' : ℕ → (ℕ → ℂ) × (ℕ → ℂ))
    (X Y : ℕ → ℂ) :
    (∃ R R', maxwellOperator d p bufs X Y = some R ∧ invBands d p bufs' R = some R' ∧ ∀ b < p, ∀ G < d.N, band p R' b G = band p X b G) ∧
    (∃ R R', invBands d p bufs' X = some R ∧ maxwellOperator d p bufs R Y = some R' ∧ ∀ b < p, ∀ G < d.N, band p R' b G = band p X b G) ∧
    (∃ R, maxwellOperator d p bufs X Y = some R ∧
      ∀ b < p, ∀ G < d.N, band p (simplePrecondition d.N 2 p kpGn2 e R) b G = band p X b G) ∧
    (∃ R, maxwellOperator d p bufs (simplePrecondition d.N 2 p kpGn2 e X) Y = some R ∧
      ∀ b < p, ∀ G < d.N, band p R b G = band p X b G) := by
  have hne : ∀ G < d.N, e * V3.dot (K G) (K G) ≠ 0 := by
    intro G hG
    refine mul_ne_zero he0.ne' (fun hz => h0 G hG ?_)
    simp only [V3.dot] at hz
    ext
    · show (K G).x = 0
      nlinarith [mul_self_nonneg (K G).x, mul_self_nonneg (K G).y, mul_self_nonneg (K G).z]
    · show (K G).y = 0
      nlinarith [mul_self_nonneg (K G).x, mul_self_nonneg (K G).y, mul_self_nonneg (K G).z]
    · show (K G).z = 0
      nlinarith [mul_self_nonneg (K G).x, mul_self_nonneg (K G).y, mul_self_nonneg (K G).z]
  have hcan : ∀ (G : ℕ), G < d.N → ∀ z : ℂ, ((1 / (e * V3.dot (K G) (K G)) : ℝ) : ℂ) * (((e * V3.dot (K G) (K G) : ℝ) : ℂ) * z) = z := by
    intro G hG z
    rw [← mul_assoc, ← Complex.ofReal_mul, one_div_mul_cancel (hne G hG), Complex.ofReal_one, one_mul]
  have hcan' : ∀ (G : ℕ), G < d.N → ∀ z : ℂ, ((e * V3.dot (K G) (K G) : ℝ) : ℂ) * (((1 / (e * V3.dot (K G) (K G)) : ℝ) : ℂ) * z) = z := by
    intro G hG z
    rw [← mul_assoc, ← Complex.ofReal_mul, mul_one_div_cancel (hne G hG), Complex.ofReal_one, one_mul]
  have hf : ∀ G < d.N, 1 / fixDenom (kpGn2 G * e) = 1 / (e * V3.dot (K G) (K G)) := by
    intro G hG
    have : kpGn2 G * e = e * V3.dot (K G) (K G) := by rw [hk G hG]; ring
    rw [this, fixDenom, if_neg (hne G hG)]
  refine ⟨?_, ?_, ?_, ?_⟩
  · obtain ⟨R, e1, a1, -⟩ := C04_bands d p hn bufs X Y
    obtain ⟨R', e2, b1, -⟩ := invBands_apply d p hn bufs' R
    refine ⟨R, R', e1, e2, fun b hb G hG => ?_⟩
    rw [b1 b hb G hG, homogeneous_inv hI he0.ne' he hK h0 _ hG, a1 b hb G hG, homogeneous_maxwell hI hmu he hK _ hG]
    exact Prod.ext (hcan G hG _) (hcan G hG _)
  · obtain ⟨R, e1, a1, -⟩ := invBands_apply d p hn bufs' X
    obtain ⟨R', e2, b1, -⟩ := C04_bands d p hn bufs R Y
    refine ⟨R, R', e1, e2, fun b hb G hG => ?_⟩
    rw [b1 b hb G hG, homogeneous_maxwell hI hmu he hK _ hG, a1 b hb G hG, homogeneous_inv hI he0.ne' he hK h0 _ hG]
    exact Prod.ext (hcan' G hG _) (hcan' G hG _)
  · obtain ⟨R, e1, a1, -⟩ := C04_bands d p hn bufs X Y
    refine ⟨R, e1, fun b hb G hG => ?_⟩
    rw [(simple_band d.N p kpGn2 e R).1 b hb G hG]
    unfold bandDiag
    beta_reduce
    rw [hf G hG, a1 b hb G hG, homogeneous_maxwell hI hmu he hK _ hG]
    exact Prod.ext (hcan G hG _) (hcan G hG _)
  · obtain ⟨R, e1, a1, -⟩ := C04_bands d p hn bufs (simplePrecondition d.N 2 p kpGn2 e X) Y
    refine ⟨R, e1, fun b hb G hG => ?_⟩
    rw [a1 b hb G hG, homogeneous_maxwell hI hmu he hK _ hG, (simple_band d.N p kpGn2 e X).1 b hb G hG]
    unfold bandDiag
    beta_reduce
    rw [hf G hG]
    exact Prod.ext (hcan' G hG _) (hcan' G hG _)

/-- Non-vacuity of C78 and C79: `oneWave` satisfies every hypothesis (see also the example after C77), with the matrix 1 for `YtY`. -/
example : oneWave.muInv = none ∧ (∀ r < oneWave.N, oneWave.epsInv r = ⟨1 / 4, 1 / 4, 1 / 4, 0, 0, 0⟩) ∧ (⟨2, 0, 0⟩ : V3 ℝ) ≠ 0 ∧
    (∀ r < oneWave.N, 0 < (oneWave.epsInv r).m00 + (oneWave.epsInv r).m11 + (oneWave.epsInv r).m22) ∧
    (Matrix.of fun i j : Fin 1 => (1 : ℂ)).PosDef := by
  refine ⟨rfl, fun _ _ => rfl, fun h => ?_, fun r _ => by simp [oneWave]; norm_num, ?_⟩
  · have := congrArg V3.x h
    norm_num at this
  · have : (Matrix.of fun i j : Fin 1 => (1 : ℂ)) = 1 := by
      ext i j
      fin_cases i; fin_cases j; rfl
    rw [this]
    exact Matrix.PosDef.one

end Mpb.Target

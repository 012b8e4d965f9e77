import Verif.Epsilon.Props
import Mathlib.Analysis.Convex.Basic

/-!
# Property C85: the dielectric function at a point, its components and its statistics
-/

namespace Mpb.Epsilon
open Tensor Tensor.Spec Field Matrix Spec

variable {S : Shape}

theorem toMatrix_ext {F : ℤ → ℤ → ℤ → HMat} (size p : V3 ℝ) :
    toMatrix ⟨at_ S size p fun i j k => (F i j k).m00, at_ S size p fun i j k => (F i j k).m11, at_ S size p fun i j k => (F i j k).m22,
      at_ S size p fun i j k => (F i j k).m01, at_ S size p fun i j k => (F i j k).m02, at_ S size p fun i j k => (F i j k).m12⟩ =
    at_ S size p fun i j k => toMatrix (F i j k) := by
  ext i j
  unfold at_
  simp only [Mpb.Spec.trilin_eq]
  fin_cases i <;> fin_cases j <;> simp [toMatrix]

/-- C85, `get-epsilon-inverse-tensor-point`: at every position the returned matrix is the linear interpolation of the stored inverse tensors
(all reads in bounds), in both storage modes. -/
theorem C85_point (hS : S.Ok) (size p : V3 ℝ) (data : List ℝ) (F : ℤ → ℤ → ℤ → HMat) (hF : Periodic S F) (hsym : SymT S F) (hd : HoldsT S data F) :
    epsilonInverseTensorPoint S size p data = some (at_ S size p fun i j k => toMatrix (F i j k)) := by
  have hs : S.inv = true → ∀ i j k a b, toMatrix (F (-i) (-j) (-k)) a b = star (toMatrix (F i j k) a b) := by
    intro h i j k a b
    rw [hsym h]
    rfl
  have r : ∀ o < 9, ∀ g : HMat → ℝ, (∀ m, (reals m)[o]? = some (g m)) → Holds S data o 9 fun i j k => g (F i j k) := by
    intro o ho g hg ix iy iz hx hy hz
    rw [hd ix iy iz hx hy hz o ho]
    exact hg _
  unfold epsilonInverseTensorPoint interpEpsInv
  rw [C40_interp hS size p data 0 9 false (fun i j k => (F i j k).m00) (fun i j k a b c => by simp only [hF i j k a b c])
      (fun h i j k => by simpa [toMatrix] using congrArg Complex.re (hs h i j k 0 0)) (r 0 (by norm_num) _ fun _ => rfl),
    C40_interp hS size p data 1 9 false (fun i j k => (F i j k).m11) (fun i j k a b c => by simp only [hF i j k a b c])
      (fun h i j k => by simpa [toMatrix] using congrArg Complex.re (hs h i j k 1 1)) (r 1 (by norm_num) _ fun _ => rfl),
    C40_interp hS size p data 2 9 false (fun i j k => (F i j k).m22) (fun i j k a b c => by simp only [hF i j k a b c])
      (fun h i j k => by simpa [toMatrix] using congrArg Complex.re (hs h i j k 2 2)) (r 2 (by norm_num) _ fun _ => rfl),
    C40_complex hS size p data 3 9 (fun i j k => (F i j k).m01) (fun i j k a b c => by simp only [hF i j k a b c])
      (fun h i j k => by simpa [toMatrix] using hs h i j k 0 1) ⟨r 3 (by norm_num) _ fun _ => rfl, r 4 (by norm_num) _ fun _ => rfl⟩,
    C40_complex hS size p data 5 9 (fun i j k => (F i j k).m02) (fun i j k a b c => by simp only [hF i j k a b c])
      (fun h i j k => by simpa [toMatrix] using hs h i j k 0 2) ⟨r 5 (by norm_num) _ fun _ => rfl, r 6 (by norm_num) _ fun _ => rfl⟩,
    C40_complex hS size p data 7 9 (fun i j k => (F i j k).m12) (fun i j k a b c => by simp only [hF i j k a b c])
      (fun h i j k => by simpa [toMatrix] using hs h i j k 1 2) ⟨r 7 (by norm_num) _ fun _ => rfl, r 8 (by norm_num) _ fun _ => rfl⟩]
  simp only [Option.bind_eq_bind, Option.bind_some, Option.pure_def, Option.map_some]
  rw [toMatrix_ext]

theorem epsilonPoint_eq (heev : Heev) (size p : V3 ℝ) (data : List ℝ) {M : Matrix (Fin 3) (Fin 3) ℂ}
    (h : epsilonInverseTensorPoint S size p data = some M) : ∃ w, toMatrix w = M ∧ epsilonPoint heev S size p data = meanMedium heev w := by
  unfold epsilonInverseTensorPoint at h
  obtain ⟨w, hw, e⟩ := Option.map_eq_some_iff.1 h
  refine ⟨w, e, ?_⟩
  unfold epsilonPoint
  rw [hw]
  rfl

/-- C85, grid points: at the grid points (of any cell) `get-epsilon-point` is the value of the pixel that `get-epsilon` reports. -/
theorem C85_point_exact (heev : Heev) (hS : S.Ok) (size : V3 ℝ) (hx : size.x ≠ 0) (hy : size.y ≠ 0) (hz : size.z ≠ 0) (data : List ℝ)
    (F : ℤ → ℤ → ℤ → HMat) (hF : Periodic S F) (hsym : SymT S F) (hd : HoldsT S data F) (i j k : ℤ) :
    epsilonPoint heev S size ⟨((i : ℝ) / S.nx - 1 / 2) * size.x, ((j : ℝ) / S.ny - 1 / 2) * size.y, ((k : ℝ) / S.nz - 1 / 2) * size.z⟩ data =
      meanMedium heev (F i j k) := by
  obtain ⟨w, hw, e⟩ := epsilonPoint_eq heev _ _ _ (C85_point hS size _ data F hF hsym hd)
  rw [C40_exact hS size hx hy hz] at hw
  rw [e, toMatrix_inj hw]

theorem form_add (A B : Matrix (Fin 3) (Fin 3) ℂ) (a b : ℝ) (v : Fin 3 → ℂ) : form (a • A + b • B) v = a * form A v + b * form B v := by
  unfold form
  rw [Matrix.add_mulVec, dotProduct_add, Matrix.smul_mulVec, Matrix.smul_mulVec, dotProduct_smul, dotProduct_smul]
  simp

theorem trace_add_re (A B : Matrix (Fin 3) (Fin 3) ℂ) (a b : ℝ) : (a • A + b • B).trace.re = a * A.trace.re + b * B.trace.re := by
  rw [Matrix.trace_add, Matrix.trace_smul, Matrix.trace_smul]
  simp

theorem two_pos_of {heev : Heev} (hh : HeevOk heev) {w : HMat} {c : ℝ} (h : ∀ v, len2 v = 1 → c ≤ (toMatrix w).trace.re - form (toMatrix w) v) :
    c ≤ symMatrixEigs heev w 0 + symMatrixEigs heev w 1 := by
  have he := eigs_ok hh w
  obtain ⟨v, hv, hf⟩ := eig_attained he 2
  have := h v hv
  rw [hf, eig_trace he] at this
  linarith

/-- C85, no overshoot: `get-epsilon-point` never exceeds the largest of the values `get-epsilon` reports for the pixels. -/
theorem C85_point_upper {heev : Heev} (hh : HeevOk heev) (hS : S.Ok) (size p : V3 ℝ) (data : List ℝ) (F : ℤ → ℤ → ℤ → HMat) (hF : Periodic S F)
    (hsym : SymT S F) (hd : HoldsT S data F) {B : ℝ} (hB : ∀ i j k, ∃ ε, meanMedium heev (F i j k) = some ε ∧ 0 < ε ∧ ε ≤ B) :
    ∃ ε, epsilonPoint heev S size p data = some ε ∧ 0 < ε ∧ ε ≤ B := by
  have hB0 : 0 < B := by
    obtain ⟨ε, -, h1, h2⟩ := hB 0 0 0
    linarith
  have hmem := C40_convex (S := S) size p (fun i j k => toMatrix (F i j k))
    {M : Matrix (Fin 3) (Fin 3) ℂ | ∀ v, len2 v = 1 → 2 / B ≤ M.trace.re - form M v} (by
      intro A hA C hC a b ha hb hab v hv
      simp only [trace_add_re, form_add]
      have h1 := hA v hv
      have h2 := hC v hv
      have : a * (2 / B) + b * (2 / B) = 2 / B := by rw [← add_mul, hab, one_mul]
      nlinarith) (by
      intro i j k v hv
      obtain ⟨ε, he, h1, h2⟩ := hB i j k
      have h3 := eig_two (eigs_ok hh (F i j k)) v hv
      unfold meanMedium at he
      dsimp only at he
      split_ifs at he with h4
      have h5 := Option.some.inj he
      have h6 : 0 < symMatrixEigs heev (F i j k) 0 + symMatrixEigs heev (F i j k) 1 := by
        by_contra h
        have : 2 / (symMatrixEigs heev (F i j k) 0 + symMatrixEigs heev (F i j k) 1) ≤ 0 := div_nonpos_of_nonneg_of_nonpos (by norm_num) (not_lt.mp h)
        linarith
      refine le_trans ?_ h3
      rw [div_le_iff₀ hB0]
      rw [← h5, div_le_iff₀ h6] at h2
      linarith)
  obtain ⟨w, hw, e⟩ := epsilonPoint_eq heev _ _ _ (C85_point hS size p data F hF hsym hd)
  rw [← hw] at hmem
  have h1 := two_pos_of hh hmem
  have h2 : 0 < symMatrixEigs heev w 0 + symMatrixEigs heev w 1 := lt_of_lt_of_le (by positivity) h1
  rw [e]
  unfold meanMedium
  dsimp only
  rw [if_neg h2.ne']
  refine ⟨_, rfl, by positivity, ?_⟩
  rw [div_le_iff₀ h2]
  rw [div_le_iff₀ hB0] at h1
  linarith

/-- C85, bounds: if every principal value of every stored inverse tensor lies between `1 / hi` and `1 / lo`, then `get-epsilon-point` lies between
`lo` and `hi` everywhere. -/
theorem C85_point_bounds {heev : Heev} (hh : HeevOk heev) (hS : S.Ok) (size p : V3 ℝ) (data : List ℝ) (F : ℤ → ℤ → ℤ → HMat) (hF : Periodic S F)
    (hsym : SymT S F) (hd : HoldsT S data F) {lo hi : ℝ} (hlo : 0 < lo) (hhi : 0 < hi)
    (hB : ∀ i j k v, 1 / hi * len2 v ≤ form (toMatrix (F i j k)) v ∧ form (toMatrix (F i j k)) v ≤ 1 / lo * len2 v) :
    ∃ ε, epsilonPoint heev S size p data = some ε ∧ lo ≤ ε ∧ ε ≤ hi := by
  have hmem := C40_convex (S := S) size p (fun i j k => toMatrix (F i j k))
    {M : Matrix (Fin 3) (Fin 3) ℂ | ∀ v, 1 / hi * len2 v ≤ form M v ∧ form M v ≤ 1 / lo * len2 v} (by
      intro A hA C hC a b ha hb hab v
      rw [form_add]
      obtain ⟨h1, h2⟩ := hA v
      obtain ⟨h3, h4⟩ := hC v
      have e1 : a * (1 / hi * len2 v) + b * (1 / hi * len2 v) = 1 / hi * len2 v := by rw [← add_mul, hab, one_mul]
      have e2 : a * (1 / lo * len2 v) + b * (1 / lo * len2 v) = 1 / lo * len2 v := by rw [← add_mul, hab, one_mul]
      constructor <;> nlinarith) (fun i j k v => hB i j k v)
  obtain ⟨w, hw, e⟩ := epsilonPoint_eq heev _ _ _ (C85_point hS size p data F hF hsym hd)
  rw [← hw] at hmem
  have he := eigs_ok hh w
  have key : ∀ i, 1 / hi ≤ symMatrixEigs heev w i ∧ symMatrixEigs heev w i ≤ 1 / lo := by
    intro i
    obtain ⟨v, hv, hf⟩ := eig_attained he i
    obtain ⟨h1, h2⟩ := hmem v
    rw [hv, hf, mul_one] at h1 h2
    exact ⟨h1, h2⟩
  obtain ⟨a0, b0⟩ := key 0
  obtain ⟨a1, b1⟩ := key 1
  have hp : 0 < symMatrixEigs heev w 0 + symMatrixEigs heev w 1 := by
    have : 0 < 1 / hi := by positivity
    linarith
  rw [e]
  unfold meanMedium
  dsimp only
  rw [if_neg hp.ne']
  rw [div_le_iff₀ hhi] at a0 a1
  rw [le_div_iff₀ hlo] at b0 b1
  refine ⟨_, rfl, ?_, ?_⟩
  · rw [le_div_iff₀ hp]; linarith
  · rw [div_le_iff₀ hp]; linarith

end Mpb.Epsilon

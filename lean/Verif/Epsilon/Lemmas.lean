import Verif.Epsilon.Spec
import Verif.Tensor.Lemmas2
import Mathlib.LinearAlgebra.Matrix.Trace

/-!
# The dielectric function as the user sees it: lemmas
-/

namespace Mpb.Epsilon
open Tensor Tensor.Spec Field Matrix Spec

theorem vm_transpose (V : HMat) : (fun i j => vm V j i : Matrix (Fin 3) (Fin 3) ℂ) = (toMatrix V)ᵀ := by
  ext i j
  fin_cases i <;> fin_cases j <;> apply Complex.ext <;> simp [vm, toMatrix, Matrix.transpose]

theorem tc (A : Matrix (Fin 3) (Fin 3) ℂ) : (Aᵀ)ᴴ = (Aᴴ)ᵀ := by ext i j; rfl

theorem eig_transpose {M : Matrix (Fin 3) (Fin 3) ℂ} {e : Fin 3 → ℝ} (h : Eigenvalues M e) : Eigenvalues Mᵀ e := by
  obtain ⟨h0, h1, U, u1, u2, hM⟩ := h
  refine ⟨h0, h1, (Uᴴ)ᵀ, ?_, ?_, ?_⟩
  · rw [tc, ← Matrix.transpose_mul, Matrix.conjTranspose_conjTranspose, u1, Matrix.transpose_one]
  · rw [tc, ← Matrix.transpose_mul, Matrix.conjTranspose_conjTranspose, u2, Matrix.transpose_one]
  · rw [hM, tc, Matrix.conjTranspose_conjTranspose, Matrix.transpose_mul, Matrix.transpose_mul, Matrix.diagonal_transpose, Matrix.mul_assoc]

theorem eigs_ok {heev : Heev} (h : HeevOk heev) (V : HMat) : Eigenvalues (toMatrix V) (symMatrixEigs heev V) := by
  have h1 := h (toMatrix V)ᵀ (by rw [tc, toMatrix_star])
  have h2 := eig_transpose h1
  rw [Matrix.transpose_transpose] at h2
  unfold symMatrixEigs
  rw [vm_transpose]
  exact h2

theorem form_diag (M U : Matrix (Fin 3) (Fin 3) ℂ) (e : Fin 3 → ℝ) (h : M = Uᴴ * diagonal (fun i => (e i : ℂ)) * U) (v : Fin 3 → ℂ) :
    form M v = ∑ i, e i * Complex.normSq ((U *ᵥ v) i) := by
  unfold form
  rw [h, Matrix.mul_assoc, ← Matrix.mulVec_mulVec, Matrix.dotProduct_mulVec, ← Matrix.star_mulVec, ← Matrix.mulVec_mulVec]
  simp only [dotProduct, Matrix.mulVec_diagonal, Fin.sum_univ_three, Pi.star_apply, Complex.add_re]
  generalize (U *ᵥ v) = w
  simp [Complex.normSq_apply]
  ring

theorem len2_unit (U : Matrix (Fin 3) (Fin 3) ℂ) (h : Uᴴ * U = 1) (v : Fin 3 → ℂ) : len2 v = ∑ i, Complex.normSq ((U *ᵥ v) i) := by
  have h1 := form_diag 1 U 1 (by rw [show (fun i : Fin 3 => (((1 : Fin 3 → ℝ) i : ℝ) : ℂ)) = fun _ => 1 by ext; simp, Matrix.diagonal_one, Matrix.mul_one, h]) v
  unfold form at h1
  rw [Matrix.one_mulVec] at h1
  simpa [len2] using h1

theorem eig_trace {M : Matrix (Fin 3) (Fin 3) ℂ} {e : Fin 3 → ℝ} (h : Eigenvalues M e) : M.trace.re = e 0 + e 1 + e 2 := by
  obtain ⟨-, -, U, u1, -, rfl⟩ := h
  rw [Matrix.trace_mul_comm, ← Matrix.mul_assoc, u1, Matrix.one_mul, Matrix.trace_diagonal]
  simp [Fin.sum_univ_three]

theorem eig_le {M : Matrix (Fin 3) (Fin 3) ℂ} {e : Fin 3 → ℝ} (h : Eigenvalues M e) (v : Fin 3 → ℂ) :
    e 0 * len2 v ≤ form M v ∧ form M v ≤ e 2 * len2 v := by
  obtain ⟨h0, h1, U, u1, u2, hM⟩ := h
  rw [form_diag M U e hM, len2_unit U u2]
  simp only [Fin.sum_univ_three]
  have n0 := Complex.normSq_nonneg ((U *ᵥ v) 0)
  have n1 := Complex.normSq_nonneg ((U *ᵥ v) 1)
  have n2 := Complex.normSq_nonneg ((U *ᵥ v) 2)
  constructor <;> nlinarith

theorem eig_attained {M : Matrix (Fin 3) (Fin 3) ℂ} {e : Fin 3 → ℝ} (h : Eigenvalues M e) (i : Fin 3) : ∃ v, len2 v = 1 ∧ form M v = e i := by
  obtain ⟨h0, h1, U, u1, u2, hM⟩ := h
  refine ⟨Uᴴ *ᵥ Pi.single i 1, ?_, ?_⟩
  · rw [len2_unit U u2, Matrix.mulVec_mulVec, u1, Matrix.one_mulVec]
    rw [Finset.sum_eq_single i] <;> simp +contextual
  · rw [form_diag M U e hM, Matrix.mulVec_mulVec, u1, Matrix.one_mulVec]
    rw [Finset.sum_eq_single i] <;> simp +contextual

/-- The sum of the two smallest eigenvalues. -/
theorem eig_two {M : Matrix (Fin 3) (Fin 3) ℂ} {e : Fin 3 → ℝ} (h : Eigenvalues M e) (v : Fin 3 → ℂ) (hv : len2 v = 1) :
    e 0 + e 1 ≤ M.trace.re - form M v := by
  have h1 := eig_trace h
  have h2 := (eig_le h v).2
  rw [hv] at h2
  linarith

theorem eig_two_eq {M : Matrix (Fin 3) (Fin 3) ℂ} {e : Fin 3 → ℝ} (h : Eigenvalues M e) {v : Fin 3 → ℂ} (hv : len2 v = 1)
    (hm : ∀ w, len2 w = 1 → form M w ≤ form M v) : e 0 + e 1 = M.trace.re - form M v := by
  have h1 := eig_trace h
  have h2 := (eig_le h v).2
  rw [hv] at h2
  obtain ⟨w, hw, he⟩ := eig_attained h 2
  have h3 := hm w hw
  linarith

end Mpb.Epsilon

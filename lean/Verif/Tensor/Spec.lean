import Verif.Tensor.Model
import Mathlib.LinearAlgebra.Matrix.Determinant.Basic
import Mathlib.LinearAlgebra.Matrix.Notation
import Mathlib.Data.Complex.BigOperators

/-!
# Dielectric tensors: specification

What a packed tensor means, as an ordinary 3x3 matrix.
-/

namespace Mpb.Tensor.Spec
open Matrix

/-- The 3x3 complex matrix a packed Hermitian tensor stands for. -/
noncomputable def toMatrix (M : HMat) : Matrix (Fin 3) (Fin 3) ℂ :=
  !![(M.m00 : ℂ), M.m01, M.m02;
     star M.m01, (M.m11 : ℂ), M.m12;
     star M.m02, star M.m12, (M.m22 : ℂ)]

/-- A tensor is positive definite when `v* M v > 0` for every non-zero complex vector. -/
def PosDef (M : HMat) : Prop := ∀ v : Fin 3 → ℂ, v ≠ 0 → 0 < (star v ⬝ᵥ (toMatrix M *ᵥ v)).re

/-- The real 3x3 matrix of an array `R[3][3]` (row `i`, column `j`). -/
def rows (R : M3 ℝ) : Matrix (Fin 3) (Fin 3) ℝ :=
  !![R.c0.x, R.c1.x, R.c2.x; R.c0.y, R.c1.y, R.c2.y; R.c0.z, R.c1.z, R.c2.z]

/-- A unit vector. -/
def Unit (n : V3 ℝ) : Prop := n.x ^ 2 + n.y ^ 2 + n.z ^ 2 = 1

/-- The isotropic tensor with relative permittivity `e`. -/
def iso (e : ℝ) : HMat := ⟨e, e, e, 0, 0, 0⟩

/-- A real vector as a complex column. -/
def col (n : V3 ℝ) : Fin 3 → ℂ := ![(n.x : ℂ), (n.y : ℂ), (n.z : ℂ)]

/-- The real part of the outcome of a routine, forgetting how it failed. -/
def Res.get? {α : Type*} : Res α → Option α
  | .ok a => some a
  | _ => none

end Mpb.Tensor.Spec

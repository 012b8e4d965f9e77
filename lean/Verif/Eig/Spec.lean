import Mathlib.LinearAlgebra.Matrix.PosDef
import Mathlib.Data.Complex.Basic
import Mathlib.Analysis.Complex.Order

/-!
# Specification: generalised eigenproblems

Independent of the model.
-/

namespace Mpb.Eig.Spec

open Matrix

variable {N p m : ℕ}

/-- `Y` holds a basis of a space in which the pair `(A, B)` is diagonal with the numbers `vals`, in increasing order: `B`-orthonormal
columns, no coupling between them. -/
structure RitzBasis (A B : Matrix (Fin N) (Fin N) ℂ) (Y : Matrix (Fin N) (Fin p) ℂ) (vals : Fin p → ℝ) : Prop where
  orthonormal : Yᴴ * B * Y = 1
  diagonal : Yᴴ * A * Y = Matrix.diagonal (fun i => ((vals i : ℝ) : ℂ))
  sorted : ∀ i j, i ≤ j → vals i ≤ vals j

/-- The true modes of `A v = λ B v` within the space of vectors that satisfy `P`: `B`-orthonormal eigenvectors, eigenvalues in increasing
order, and every vector that satisfies `P` is a combination of them. -/
structure Modes (A B : Matrix (Fin N) (Fin N) ℂ) (P : (Fin N → ℂ) → Prop) (V : Matrix (Fin N) (Fin m) ℂ) (lam : Fin m → ℝ) : Prop where
  orthonormal : Vᴴ * B * V = 1
  eigen : A * V = B * V * Matrix.diagonal (fun i => ((lam i : ℝ) : ℂ))
  sorted : ∀ i j, i ≤ j → lam i ≤ lam j
  complete : ∀ x, P x → ∃ c, x = V.mulVec c

end Mpb.Eig.Spec

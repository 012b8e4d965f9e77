import Verif.Eig.Spec

/-!
# Specification: bands of a generalised eigenproblem

Independent of the model.
-/

namespace Mpb.Kpoint.Spec

open Matrix

variable {N m : ℕ}

/-- The inner product `⟨x, M y⟩`. -/
def ip (M : Matrix (Fin N) (Fin N) ℂ) (x y : Fin N → ℂ) : ℂ := star x ⬝ᵥ M.mulVec y

/-- Bands with their eigenvalues (`A x = v B x`, solved approximately): normalised, orthogonal to each other, and each eigenvalue is the
Rayleigh quotient of its band. -/
structure Bands (A B : Matrix (Fin N) (Fin N) ℂ) (cols : List (Fin N → ℂ)) (vals : List ℝ) : Prop where
  normalised : ∀ x ∈ cols, ip B x x = 1
  orthogonal : cols.Pairwise fun x y => ip B x y = 0
  quotient : List.Forall₂ (fun x v => ip A x x = ((v : ℝ) : ℂ)) cols vals

/-- Bands which the operator does not couple. -/
def Uncoupled (A : Matrix (Fin N) (Fin N) ℂ) (cols : List (Fin N → ℂ)) : Prop := cols.Pairwise fun x y => ip A x y = 0

end Mpb.Kpoint.Spec

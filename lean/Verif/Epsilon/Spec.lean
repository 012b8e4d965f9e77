import Verif.Epsilon.Model
import Verif.Field.PointProps

/-!
# The dielectric function as the user sees it: specification
-/

namespace Mpb.Epsilon
open Tensor Tensor.Spec Field Matrix

/-- `e` lists the eigenvalues of `M` in ascending order (with an orthonormal basis of eigenvectors, the rows of `U`). -/
def Spec.Eigenvalues (M : Matrix (Fin 3) (Fin 3) ℂ) (e : Fin 3 → ℝ) : Prop :=
  e 0 ≤ e 1 ∧ e 1 ≤ e 2 ∧ ∃ U : Matrix (Fin 3) (Fin 3) ℂ, U * Uᴴ = 1 ∧ Uᴴ * U = 1 ∧ M = Uᴴ * diagonal (fun i => (e i : ℂ)) * U

/-- What LAPACK promises. -/
def Spec.HeevOk (heev : Heev) : Prop := ∀ M : Matrix (Fin 3) (Fin 3) ℂ, Mᴴ = M → Spec.Eigenvalues M (heev M)

/-- The value of the quadratic form of a matrix, and the squared length of a vector. -/
noncomputable def Spec.form (M : Matrix (Fin 3) (Fin 3) ℂ) (v : Fin 3 → ℂ) : ℝ := (star v ⬝ᵥ (M *ᵥ v)).re
noncomputable def Spec.len2 (v : Fin 3 → ℂ) : ℝ := (star v ⬝ᵥ v).re

/-- The tensor `eps` is the inverse of `epsInv`. -/
def Spec.Inverse (eps epsInv : HMat) : Prop := toMatrix eps * toMatrix epsInv = 1

/-- The array of reals holds the periodic tensor field `F` at the stored points. -/
def Spec.HoldsT (S : Shape) (data : List ℝ) (F : ℤ → ℤ → ℤ → HMat) : Prop :=
  ∀ ix iy iz : ℕ, ix < S.dims.1 → iy < S.dims.2.1 → iz < S.dims.2.2 → ∀ o < 9,
    data[o + ((ix * S.dims.2.1 + iy) * S.dims.2.2 + iz) * 9]? = (reals (F ix iy iz))[o]?

/-- In the inversion-symmetric build the tensor at the inverted point is the complex conjugate. -/
def Spec.SymT (S : Shape) (F : ℤ → ℤ → ℤ → HMat) : Prop :=
  S.inv = true → ∀ i j k, toMatrix (F (-i) (-j) (-k)) = (toMatrix (F i j k)).map star

end Mpb.Epsilon

import Verif.Common
import Mathlib.Analysis.SpecialFunctions.Complex.Arg
import Mathlib.Algebra.BigOperators.Group.Finset.Basic

/-!
# Model of `scale-eigenvector` and `fix-phase-consistency`

An eigenvector matrix with `n` rows (planewave components) and `p` columns (bands) is a row-major memory `ℕ → ℂ`: row `r`,
band `b` (from 0) is at index `r * p + b` (matrices.c:28-70).
-/

namespace Mpb.Phase

/-- `blasglue_scal(n, s, x, incx)` (blasglue.c): `x[i*incx] *= s` for `i < n`; `off` is the offset of `x` in the memory. -/
def scal (s : ℂ) (off inc : ℕ) : (n : ℕ) → (ℕ → ℂ) → (ℕ → ℂ)
  | 0, mem => mem
  | n + 1, mem =>
    let mem := scal s off inc n mem
    Function.update mem (off + n * inc) (s * mem (off + n * inc))

/-- `scale_eigenvector`, mpb/matrix-smob.c:335-349, complex-scalar build (`mpb`).  `b` is the 1-based band; `none` is a
failing `CHECK`. -/
def scaleEigenvector (n p : ℕ) (H : ℕ → ℂ) (b : ℤ) (scale : ℂ) : Option (ℕ → ℂ) :=
  if 0 < b ∧ b ≤ p then some (scal scale (b.toNat - 1) p n H) else none

/-- `scale_eigenvector`, mpb/matrix-smob.c:335-349, real-scalar build (`mpbi`): the `CHECK` at line 342 and
`ASSIGN_SCALAR` (scalar.h), which keeps the real part only.  `H` holds real numbers. -/
noncomputable def scaleEigenvectorReal (n p : ℕ) (H : ℕ → ℂ) (b : ℤ) (scale : ℂ) : Option (ℕ → ℂ) :=
  if 0 < b ∧ b ≤ p then
    if |scale.im * scale.re| < 1e-14 then some (scal (scale.re : ℂ) (b.toNat - 1) p n H) else none
  else none

/-- Column `b` (from 0) of an eigenvector matrix. -/
def col (p : ℕ) (H : ℕ → ℂ) (b : ℕ) : ℕ → ℂ := fun r => H (r * p + b)

/-- Entry `(i,j)` of `dot_eigenvectors`, mpb/matrix-smob.c:287-333: `Σ_r conj(old[r,i]) * (L H_j)[r]`, where `L` is the
identity without magnetic materials (matrices.c `evectmatrix_XtY_slice`) and `maxwell_compute_H_from_B` with them.  The
`CHECK` on the number of bands is in `fixPhase`. -/
noncomputable def dotEntry (n : ℕ) (L : (ℕ → ℂ) → (ℕ → ℂ)) (m : ℕ) (old : ℕ → ℂ) (p : ℕ) (H : ℕ → ℂ) (first i j : ℕ) : ℂ :=
  ∑ r ∈ Finset.range n, (starRingEnd ℂ) (old (r * m + i)) * L (col p H (first - 1 + j)) r

/-- `(conj (make-polar 1 (angle d)))`, mpb.scm.in:925. -/
noncomputable def phaseOf (d : ℂ) : ℂ := (starRingEnd ℂ) (Complex.exp (Complex.arg d * Complex.I))

/-- The `map` of `scale-eigenvector` over bands `first..`, mpb.scm.in:927-930. -/
def scaleAll (n p : ℕ) (first : ℕ) (phases : ℕ → ℂ) : (cnt : ℕ) → (ℕ → ℂ) → Option (ℕ → ℂ)
  | 0, H => some H
  | cnt + 1, H =>
    match scaleAll n p first phases cnt H with
    | none => none
    | some H' => scaleEigenvector n p H' ((first + cnt : ℕ) : ℤ) (phases cnt)

/-- `fix-phase-consistency`, mpb.scm.in:923-930: returns the new eigenvectors; `m` is the number of old bands. -/
noncomputable def fixPhase (n : ℕ) (L : (ℕ → ℂ) → (ℕ → ℂ)) (m : ℕ) (old : ℕ → ℂ) (p : ℕ) (H : ℕ → ℂ) (first : ℕ) :
    Option (ℕ → ℂ) :=
  if first - 1 + m ≤ p then scaleAll n p first (fun i => phaseOf (dotEntry n L m old p H first i i)) m H else none

end Mpb.Phase

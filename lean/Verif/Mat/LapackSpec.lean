import Verif.Mat.LapackModel
import Verif.Mat.Spec
import Mathlib.LinearAlgebra.Matrix.PosDef

/-!
# Specification: what LAPACK promises (exact arithmetic)

Arrays are column-major.  Each routine looks at one triangle of a Hermitian matrix.
-/

namespace Mpb.Mat.Spec
open scoped ComplexOrder

/-- The column-major matrix in an array. -/
def cmat (h : Heap) (A : Ptr) (ld n : ℕ) : Matrix (Fin n) (Fin n) ℂ := Matrix.of fun i j => rd h A (i + j * ld)

/-- The pair belongs to the lower (upper) triangle. -/
def Tri {n : ℕ} (lower : Bool) (i j : Fin n) : Prop := if lower then j ≤ i else i ≤ j

instance {n : ℕ} (lower : Bool) (i j : Fin n) : Decidable (Tri lower i j) := by unfold Tri; infer_instance

/-- The Hermitian matrix given by one triangle (imaginary parts on the diagonal are ignored). -/
noncomputable def triHerm {n : ℕ} (lower : Bool) (M : Matrix (Fin n) (Fin n) ℂ) : Matrix (Fin n) (Fin n) ℂ :=
  Matrix.of fun i j => if i = j then ((M i i).re : ℂ) else if Tri lower i j then M i j else (starRingEnd ℂ) (M j i)

/-- One triangle, zero elsewhere. -/
def tri {n : ℕ} (lower : Bool) (M : Matrix (Fin n) (Fin n) ℂ) : Matrix (Fin n) (Fin n) ℂ := Matrix.of fun i j => if Tri lower i j then M i j else 0

/-- The matrix whose Cholesky factor is in one triangle: `L L^H` or `U^H U`. -/
noncomputable def cholesky {n : ℕ} (lower : Bool) (M : Matrix (Fin n) (Fin n) ℂ) : Matrix (Fin n) (Fin n) ℂ :=
  if lower then tri lower M * (tri lower M).conjTranspose else (tri lower M).conjTranspose * tri lower M

/-- `potrf`: with legal arguments `info` is not negative, and zero exactly if the matrix is positive definite; then the triangle holds the Cholesky
factor.  Only the array changes. -/
def PotrfOk (L : Lapack) (n : ℕ) (A : Ptr) (ld : ℕ) : Prop := 1 ≤ ld → n ≤ ld → ∀ lower h,
  0 ≤ (L.potrf lower n A ld h).2 ∧ ((L.potrf lower n A ld h).2 = 0 ↔ (triHerm lower (cmat h A ld n)).PosDef) ∧
  ((L.potrf lower n A ld h).2 = 0 → cholesky lower (cmat (L.potrf lower n A ld h).1 A ld n) = triHerm lower (cmat h A ld n)) ∧
  Frame h (L.potrf lower n A ld h).1 A ld n n

/-- `potri`: if the triangle holds a factor of a regular matrix, `info` is zero and the triangle that of the inverse of that matrix. -/
def PotriOk (L : Lapack) (n : ℕ) (A : Ptr) (ld : ℕ) : Prop := 1 ≤ ld → n ≤ ld → ∀ lower h, IsUnit (cholesky lower (cmat h A ld n)).det →
  (L.potri lower n A ld h).2 = 0 ∧ (∀ i j : Fin n, Tri lower i j → cmat (L.potri lower n A ld h).1 A ld n i j = (cholesky lower (cmat h A ld n))⁻¹ i j) ∧
  Frame h (L.potri lower n A ld h).1 A ld n n

/-- `hetrf` followed by `hetri`: the first has `info = 0` exactly if the matrix is regular; then the second has `info = 0` and leaves the triangle of the
inverse.  Only the array and the work space (of at least `n` numbers) change. -/
def HetOk (L : Lapack) (n : ℕ) (A : Ptr) (ld : ℕ) (W : Ptr) (lwork : ℕ) : Prop := 1 ≤ ld → n ≤ ld → n ≤ lwork → 1 ≤ lwork → W.arr ≠ A.arr → ∀ lower h,
  let r := L.hetrf lower n A ld W lwork h
  let s := L.hetri lower n A ld r.1.2 W r.1.1
  0 ≤ r.2 ∧ (r.2 = 0 ↔ IsUnit (triHerm lower (cmat h A ld n)).det) ∧ (∀ k a, ¬ InBlock A ld n n k a → k ≠ W.arr → r.1.1 k a = h k a) ∧
  (r.2 = 0 → s.2 = 0 ∧ (∀ i j : Fin n, Tri lower i j → cmat s.1 A ld n i j = (triHerm lower (cmat h A ld n))⁻¹ i j) ∧
    ∀ k a, ¬ InBlock A ld n n k a → k ≠ W.arr → s.1 k a = h k a)

/-- `hegv` (`itype` 1): for a positive definite metric `N`, eigenvectors `V` of `M v = λ N v` with `V^H N V = 1` in the columns, eigenvalues ascending; `info > 0`
otherwise.  Both arrays and the work space (`lwork ≥ 2n - 1`) change. -/
def HegvOk (L : Lapack) (n : ℕ) (A : Ptr) (lda : ℕ) (B : Ptr) (ldb : ℕ) (W : Ptr) (lwork : ℕ) : Prop :=
  1 ≤ lda → n ≤ lda → 1 ≤ ldb → n ≤ ldb → 1 ≤ lwork → 2 * n - 1 ≤ lwork → A.arr ≠ B.arr → W.arr ≠ A.arr → W.arr ≠ B.arr → ∀ lower h,
  let r := L.hegv lower n A lda B ldb W lwork h
  let M := triHerm lower (cmat h A lda n)
  let N := triHerm lower (cmat h B ldb n)
  let V := cmat r.1.1 A lda n
  0 ≤ r.2 ∧ (r.2 = 0 ↔ N.PosDef) ∧ (r.2 = 0 → V.conjTranspose * N * V = 1 ∧ M * V = N * V * Matrix.diagonal (fun i : Fin n => (r.1.2 i : ℂ)) ∧
    (∀ i j : Fin n, i ≤ j → r.1.2 i ≤ r.1.2 j)) ∧
  ∀ k a, ¬ InBlock A lda n n k a → ¬ InBlock B ldb n n k a → k ≠ W.arr → r.1.1 k a = h k a

/-- `heev`: the same with the identity as metric. -/
def HeevOk (L : Lapack) (n : ℕ) (A : Ptr) (lda : ℕ) (W : Ptr) (lwork : ℕ) : Prop :=
  1 ≤ lda → n ≤ lda → 1 ≤ lwork → 2 * n - 1 ≤ lwork → W.arr ≠ A.arr → ∀ lower h,
  let r := L.heev lower n A lda W lwork h
  let M := triHerm lower (cmat h A lda n)
  let V := cmat r.1.1 A lda n
  r.2 = 0 ∧ V.conjTranspose * V = 1 ∧ M * V = V * Matrix.diagonal (fun i : Fin n => (r.1.2 i : ℂ)) ∧
    (∀ i j : Fin n, i ≤ j → r.1.2 i ≤ r.1.2 j) ∧ ∀ k a, ¬ InBlock A lda n n k a → k ≠ W.arr → r.1.1 k a = h k a

end Mpb.Mat.Spec

import Verif.Mat.Model

/-!
# Model of the LAPACK wrappers (blasglue.c:248-380) and of their callers in sqmatrix.c, complex build

LAPACK itself is external: `Lapack` is any set of routines, what they promise is in `LapackSpec.lean`.  Fortran arrays are column-major, the
matrices of mpb row-major; the wrappers exchange `'U'` and `'L'`.  `none` is a failing `CHECK`.
-/

namespace Mpb.Mat

/-- The Fortran routines.  The first argument is `uplo == 'L'`; then the size, the array and its leading dimension.  Results: the memory and `info`. -/
structure Lapack where
  potrf : Bool → ℕ → Ptr → ℕ → Heap → Heap × ℤ
  potri : Bool → ℕ → Ptr → ℕ → Heap → Heap × ℤ
  /-- Also the pivots. -/
  hetrf : Bool → ℕ → Ptr → ℕ → Ptr → ℕ → Heap → (Heap × (ℕ → ℤ)) × ℤ
  hetri : Bool → ℕ → Ptr → ℕ → (ℕ → ℤ) → Ptr → Heap → Heap × ℤ
  /-- `itype = 1`, `jobz = 'V'`: matrix, metric, work space and its size.  Also the eigenvalues. -/
  hegv : Bool → ℕ → Ptr → ℕ → Ptr → ℕ → Ptr → ℕ → Heap → (Heap × (ℕ → ℝ)) × ℤ
  heev : Bool → ℕ → Ptr → ℕ → Ptr → ℕ → Heap → (Heap × (ℕ → ℝ)) × ℤ

/-- `uplo = uplo == 'U' ? 'L' : 'U'` (blasglue.c:252 and in every wrapper), in terms of `upper` (what the caller asks for) and `lower` (what LAPACK
is told). -/
def swapUplo (upper : Bool) : Bool := upper

/-- `lapackglue_potrf`, blasglue.c:248-258: the return value and the memory. -/
def gluePotrf (L : Lapack) (upper : Bool) (n : ℕ) (A : Ptr) (fdA : ℕ) (h : Heap) : Option (Bool × Heap) :=
  let r := L.potrf (swapUplo upper) n A fdA h
  if 0 ≤ r.2 then some (decide (r.2 = 0), r.1) else none

/-- `lapackglue_potri`, blasglue.c:260-270. -/
def gluePotri (L : Lapack) (upper : Bool) (n : ℕ) (A : Ptr) (fdA : ℕ) (h : Heap) : Option (Bool × Heap) :=
  let r := L.potri (swapUplo upper) n A fdA h
  if 0 ≤ r.2 then some (decide (r.2 = 0), r.1) else none

/-- `lapackglue_hetrf`, blasglue.c:272-287. -/
def glueHetrf (L : Lapack) (upper : Bool) (n : ℕ) (A : Ptr) (fdA : ℕ) (work : Ptr) (lwork : ℕ) (h : Heap) : Option (Bool × Heap × (ℕ → ℤ)) :=
  let r := L.hetrf (swapUplo upper) n A fdA work lwork h
  if 0 ≤ r.2 then some (decide (r.2 = 0), r.1) else none

/-- `lapackglue_hetri`, blasglue.c:289-304. -/
def glueHetri (L : Lapack) (upper : Bool) (n : ℕ) (A : Ptr) (fdA : ℕ) (ipiv : ℕ → ℤ) (work : Ptr) (h : Heap) : Option (Bool × Heap) :=
  let r := L.hetri (swapUplo upper) n A fdA ipiv work h
  if 0 ≤ r.2 then some (decide (r.2 = 0), r.1) else none

/-- `lapackglue_heev`, blasglue.c:306-322: `none` also if `info > 0`. -/
def glueHeev (L : Lapack) (upper : Bool) (n : ℕ) (A : Ptr) (fdA : ℕ) (work : Ptr) (lwork : ℕ) (h : Heap) : Option (Heap × (ℕ → ℝ)) :=
  let r := L.heev (swapUplo upper) n A fdA work lwork h
  if 0 ≤ r.2 ∧ r.2 ≤ 0 then some r.1 else none

/-- `lapackglue_hegv` with `itype = 1`, blasglue.c:350-367. -/
def glueHegv (L : Lapack) (upper : Bool) (n : ℕ) (A : Ptr) (fdA : ℕ) (B : Ptr) (fdB : ℕ) (work : Ptr) (lwork : ℕ) (h : Heap) : Option (Heap × (ℕ → ℝ)) :=
  let r := L.hegv (swapUplo upper) n A fdA B fdB work lwork h
  if 0 ≤ r.2 ∧ r.2 ≤ 0 then some r.1 else none

/-- The factorisation and inversion of `sqmatrix_invert`, sqmatrix.c:201-235: whether both succeeded, and the memory (that of the first failure
otherwise).  The allocation of `ipiv` (leaked on failure) is not modelled. -/
def invertTri (L : Lapack) (U : SQ) (pd : Bool) (W : SQ) (h : Heap) : Option (Bool × Heap) :=
  if pd then
    (gluePotrf L true U.p U.data U.p h).bind fun r =>
      if r.1 then gluePotri L true U.p U.data U.p r.2 else some r
  else if W.p * W.p ≥ U.p then
    (glueHetrf L true U.p U.data U.p W.data (W.p * W.p) h).bind fun r =>
      if r.1 then glueHetri L true U.p U.data U.p r.2.2 W.data r.2.1 else some (r.1, r.2.1)
  else none

/-- `sqmatrix_invert`, sqmatrix.c:201-245 (without `DEBUG`): return value and memory. -/
noncomputable def sqInvertL (L : Lapack) (U : SQ) (pd : Bool) (W : SQ) (h : Heap) : Option (Bool × Heap) :=
  (invertTri L U pd W h).map fun r => if r.1 then (true, mirrorUpper U.data U.p r.2) else r

/-- `sqmatrix_gen_eigensolve`, sqmatrix.c:255-284; `B` is `none` for `B.data == NULL`, `fresh` the array returned by `malloc` for `morework`.  The real
work array (sqmatrix.c:262) is not modelled. -/
def sqGenEigensolve (L : Lapack) (U : SQ) (B : Option SQ) (W : SQ) (fresh : Ptr) (h : Heap) : Option (Heap × (ℕ → ℝ)) :=
  let fits : Bool := decide ((W.p : ℤ) * W.p ≥ 3 * U.p - 1)
  let more := if fits then W.data else fresh
  let nwork := if fits then W.p * W.p else 3 * U.p - 1
  match B with
  | some B => if B.p = U.p then glueHegv L true U.p U.data B.p B.data U.p more nwork h else none
  | none => glueHeev L true U.p U.data U.p more nwork h

end Mpb.Mat

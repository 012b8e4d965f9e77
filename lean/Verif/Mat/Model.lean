import Verif.Core.Mem
import Mathlib.Analysis.Complex.Basic
import Mathlib.Algebra.BigOperators.Group.Finset.Basic

/-!
# Matrices: model of blasglue.c, sqmatrix.c, evectmatrix.c and matrices.c

The memory is a heap of arrays of scalars; a pointer is an array and an offset, so that aliasing of arguments is represented.
Scalars are exact complex numbers (complex build).  The Fortran BLAS routines are external: they are represented by their
reference semantics.  One process: `mpi_allreduce` copies its input to its output (mpiglue.h).  `none` is a failing `CHECK` or a BLAS call outside the contract of BLAS (output array overlapping an input; here:
in the same array).
-/

namespace Mpb.Mat

/-- The arrays of the program. -/
abbrev Heap := ℕ → ℕ → ℂ

/-- A pointer into an array. -/
structure Ptr where
  arr : ℕ
  off : ℕ
deriving DecidableEq

/-- Pointer arithmetic. -/
def Ptr.add (p : Ptr) (i : ℕ) : Ptr := ⟨p.arr, p.off + i⟩

/-- `p[i]`. -/
def rd (h : Heap) (p : Ptr) (i : ℕ) : ℂ := h p.arr (p.off + i)

/-- `p[i] = v`. -/
def wr (h : Heap) (p : Ptr) (i : ℕ) (v : ℂ) : Heap := Function.update h p.arr (Function.update (h p.arr) (p.off + i) v)

/-! ### BLAS reference semantics (external code) -/

/-- `zcopy`. -/
def copy (n : ℕ) (x : Ptr) (incx : ℕ) (y : Ptr) (incy : ℕ) (h : Heap) : Heap :=
  (List.range n).foldl (fun h i => wr h y (i * incy) (rd h x (i * incx))) h

/-- `zaxpy`. -/
noncomputable def axpy (n : ℕ) (a : ℂ) (x : Ptr) (incx : ℕ) (y : Ptr) (incy : ℕ) (h : Heap) : Heap :=
  (List.range n).foldl (fun h i => wr h y (i * incy) (rd h y (i * incy) + a * rd h x (i * incx))) h

/-- `zscal`. -/
noncomputable def scal (n : ℕ) (a : ℂ) (x : Ptr) (incx : ℕ) (h : Heap) : Heap :=
  (List.range n).foldl (fun h i => wr h x (i * incx) (a * rd h x (i * incx))) h

/-- `zdotc`; also the loop of `blasglue_dotc` with `NO_FORTRAN_FUNCTIONS`, blasglue.c:172-186. -/
noncomputable def dotc (n : ℕ) (x : Ptr) (incx : ℕ) (y : Ptr) (incy : ℕ) (h : Heap) : ℂ :=
  (List.range n).foldl (fun s i => s + (starRingEnd ℂ) (rd h x (i * incx)) * rd h y (i * incy)) 0

/-- The character arguments `'N'`, `'T'`, `'C'` of BLAS. -/
inductive Trans where
  | N
  | T
  | C
deriving DecidableEq

/-- Element `(i, l)` of `op(A)` for a column-major array with leading dimension `ld`. -/
noncomputable def fop (t : Trans) (h : Heap) (A : Ptr) (ld i l : ℕ) : ℂ :=
  match t with
  | .N => rd h A (i + l * ld)
  | .T => rd h A (l + i * ld)
  | .C => (starRingEnd ℂ) (rd h A (l + i * ld))

/-- `zgemm`: `C := alpha op(A) op(B) + beta C`, column-major, `C` is `m × n`; BLAS requires `C` not to overlap `A`, `B`. -/
noncomputable def fgemm (ta tb : Trans) (m n k : ℕ) (alpha : ℂ) (A : Ptr) (lda : ℕ) (B : Ptr) (ldb : ℕ) (beta : ℂ) (C : Ptr)
    (ldc : ℕ) (h : Heap) : Option Heap :=
  if A.arr = C.arr ∨ B.arr = C.arr then none
  else some <| (loop2 n m).foldl (fun h' t =>
    wr h' C (t.2 + t.1 * ldc)
      (alpha * ∑ l ∈ Finset.range k, fop ta h A lda t.2 l * fop tb h B ldb l t.1 + beta * rd h C (t.2 + t.1 * ldc))) h

/-- `zherk` with `uplo = 'L'` (`lower`) or `'U'`: `C := alpha op(A) op(A)^H + beta C` on one triangle, `op(A)` is `n × k`. -/
noncomputable def fherk (lower : Bool) (t : Trans) (n k : ℕ) (alpha : ℝ) (A : Ptr) (lda : ℕ) (beta : ℝ) (C : Ptr) (ldc : ℕ)
    (h : Heap) : Option Heap :=
  if A.arr = C.arr then none
  else some <| ((loop2 n n).filter fun t => if lower then t.1 ≤ t.2 else t.2 ≤ t.1).foldl (fun h' ji =>
    wr h' C (ji.2 + ji.1 * ldc)
      (alpha * ∑ l ∈ Finset.range k, fop t h A lda ji.2 l * (starRingEnd ℂ) (fop t h A lda ji.1 l) +
        beta * rd h C (ji.2 + ji.1 * ldc))) h

/-! ### blasglue.c -/

/-- `blasglue_gemm`, blasglue.c:189-213. -/
noncomputable def gemm (ta tb : Trans) (m n k : ℕ) (a : ℝ) (A : Ptr) (fdA : ℕ) (B : Ptr) (fdB : ℕ) (b : ℝ) (C : Ptr) (fdC : ℕ)
    (h : Heap) : Option Heap :=
  if m * n = 0 then some h
  else if k = 0 then some ((loop2 m n).foldl (fun h t => wr h C (t.1 * fdC + t.2) 0) h)
  else if A ≠ C ∧ B ≠ C then fgemm tb ta n m k a B fdB A fdA b C fdC h
  else none

/-- `blasglue_herk`, blasglue.c:215-242 (complex build); `upper` is `uplo == 'U'`. -/
noncomputable def herk (upper : Bool) (t : Trans) (n k : ℕ) (a : ℝ) (A : Ptr) (fdA : ℕ) (b : ℝ) (C : Ptr) (fdC : ℕ) (h : Heap) :
    Option Heap :=
  if n = 0 then some h
  else if k = 0 then some ((loop2 n n).foldl (fun h t => wr h C (t.1 * fdC + t.2) 0) h)
  else if A ≠ C then
    fherk upper (match t with | .C => .N | .T => .N | .N => .C) n k a A fdA b C fdC h
  else none

/-! ### Square matrices, sqmatrix.c -/

/-- `sqmatrix` (matrices.h). -/
structure SQ where
  p : ℕ
  allocP : ℕ
  data : Ptr
deriving DecidableEq

/-- `sqmatrix_copy`, sqmatrix.c:61-65. -/
def sqCopy (A B : SQ) (h : Heap) : Option Heap :=
  if A.p = B.p then some (copy (A.p * A.p) B.data 1 A.data 1 h) else none

/-- The data movement `data[i*p + j] = data[i*p0 + j]` of both resize functions, for a list of index pairs. -/
def moveAll (data : Ptr) (p0 p : ℕ) (l : List (ℕ × ℕ)) (h : Heap) : Heap :=
  l.foldl (fun h t => wr h data (t.1 * p + t.2) (rd h data (t.1 * p0 + t.2))) h

/-- `sqmatrix_resize`, sqmatrix.c:72-93.  The growing loops run backwards. -/
def sqResize (A : SQ) (p : ℕ) (preserve : Bool) (h : Heap) : Option (SQ × Heap) :=
  if p ≤ A.allocP then
    let h := if preserve then
        (if p < A.p then moveAll A.data A.p p (loop2 p p) h else moveAll A.data A.p p (loop2 A.p A.p).reverse h)
      else h
    some ({ A with p := p }, h)
  else none

/-- `sqmatrix_copy_upper2full`, sqmatrix.c:97-111. -/
noncomputable def upper2full (F U : SQ) (h : Heap) : Option Heap :=
  if F.p = U.p then
    some ((loop2 U.p U.p).foldl (fun h t =>
      wr h F.data (t.1 * U.p + t.2)
        (if t.2 < t.1 then (starRingEnd ℂ) (rd h U.data (t.2 * U.p + t.1)) else rd h U.data (t.1 * U.p + t.2))) h)
  else none

/-- `sqmatrix_symmetrize`, sqmatrix.c:114-130. -/
noncomputable def symmetrize (S A : SQ) (h : Heap) : Option Heap :=
  if S.p = A.p then
    some ((loop2 A.p A.p).foldl (fun h t =>
      let ij := t.1 * A.p + t.2
      let ji := t.2 * A.p + t.1
      wr h S.data ij ⟨0.5 * ((rd h A.data ij).re + (rd h A.data ji).re), 0.5 * ((rd h A.data ij).im - (rd h A.data ji).im)⟩) h)
  else none

/-- `sqmatrix_trace`, sqmatrix.c:133-142. -/
noncomputable def sqTrace (U : SQ) (h : Heap) : ℂ := (List.range U.p).foldl (fun s i => s + rd h U.data (i * U.p + i)) 0

/-- `sqmatrix_traceAtB`, sqmatrix.c:145-154. -/
noncomputable def traceAtB (A B : SQ) (h : Heap) : Option ℂ :=
  if A.p = B.p then some (dotc (A.p * A.p) A.data 1 B.data 1 h) else none

/-- `dagger ? 'C' : 'N'`. -/
def dag (d : Bool) : Trans := if d then .C else .N

/-- `sqmatrix_AeBC`, sqmatrix.c:162-169. -/
noncomputable def sqAeBC (A B : SQ) (bd : Bool) (C : SQ) (cd : Bool) (h : Heap) : Option Heap :=
  if A.p = B.p ∧ A.p = C.p then gemm (dag bd) (dag cd) A.p A.p A.p 1 B.data B.p C.data C.p 0 A.data A.p h else none

/-- `sqmatrix_ApaBC`, sqmatrix.c:172-179. -/
noncomputable def sqApaBC (A : SQ) (a : ℝ) (B : SQ) (bd : Bool) (C : SQ) (cd : Bool) (h : Heap) : Option Heap :=
  if A.p = B.p ∧ A.p = C.p then gemm (dag bd) (dag cd) A.p A.p A.p a B.data B.p C.data C.p 1 A.data A.p h else none

/-- `sqmatrix_ApaB`, sqmatrix.c:182-187. -/
noncomputable def sqApaB (A : SQ) (a : ℝ) (B : SQ) (h : Heap) : Option Heap :=
  if A.p = B.p then some (axpy (A.p * A.p) a B.data 1 A.data 1 h) else none

open Classical in
/-- `sqmatrix_aApbB`, sqmatrix.c:190-198. -/
noncomputable def sqaApbB (a : ℝ) (A : SQ) (b : ℝ) (B : SQ) (h : Heap) : Option Heap :=
  if A.p = B.p then
    let h := if a ≠ 1 then scal (A.p * A.p) a A.data 1 h else h
    some (axpy (A.p * A.p) b B.data 1 A.data 1 h)
  else none

/-- The final loop of `sqmatrix_invert`, sqmatrix.c:242-245, and of `evectmatrix_XtX`, evectmatrix.c:164-172: the lower triangle
is overwritten by the conjugate of the upper one. -/
noncomputable def mirrorUpper (d : Ptr) (p : ℕ) (h : Heap) : Heap :=
  ((loop2 p p).filter fun t => t.1 < t.2).foldl (fun h t =>
    wr h d (t.2 * p + t.1) ((starRingEnd ℂ) (rd h d (t.1 * p + t.2)))) h

/-- `sqmatrix_invert`, sqmatrix.c:203-248.  `lapack` is the effect of `potrf`/`potri` (or `hetrf`/`hetri`) called with `uplo =
'L'` on the column-major array, `none` when either returns failure.  Result: the return value (`false` is 0) and the heap. -/
noncomputable def sqInvert (lapack : Ptr → ℕ → Heap → Option Heap) (U : SQ) (h : Heap) : Bool × Heap :=
  match lapack U.data U.p h with
  | none => (false, h)
  | some h' => (true, mirrorUpper U.data U.p h')

/-- `sqmatrix_eigensolve`, sqmatrix.c:255-292 (`B.data == NULL`).  `heev` is LAPACK's routine on the column-major array: new heap
(eigenvectors and workspace) and eigenvalues. -/
def sqEigensolve (heev : Ptr → ℕ → Ptr → Heap → Heap × (ℕ → ℝ)) (U W : SQ) (h : Heap) : Heap × (ℕ → ℝ) :=
  heev U.data U.p W.data h

open Classical in
/-- `sqmatrix_sqrt`, sqmatrix.c:314-343.  `none` also for the `CHECK` on the eigenvalues. -/
noncomputable def sqSqrt (heev : Ptr → ℕ → Ptr → Heap → Heap × (ℕ → ℝ)) (R U W : SQ) (h : Heap) : Option Heap :=
  if R.p = U.p ∧ U.p = W.p then
    let s := sqEigensolve heev U W h
    if ∀ i < U.p, 0 < s.2 i then
      let h := (List.range U.p).foldl (fun h i =>
        let h := copy U.p (U.data.add (i * U.p)) 1 (W.data.add (i * U.p)) 1 h
        scal U.p ((Real.sqrt (s.2 i) : ℝ) : ℂ) (W.data.add (i * U.p)) 1 h) s.1
      sqAeBC R U true W false h
    else none
  else none

/-! ### Blocks of eigenvectors, evectmatrix.c -/

/-- `evectmatrix` (matrices.h): `n = localN * c` rows and `p` columns. -/
structure EM where
  n : ℕ
  p : ℕ
  allocP : ℕ
  data : Ptr
deriving DecidableEq

/-- `evectmatrix_copy`, evectmatrix.c:38-43. -/
def emCopy (X Y : EM) (h : Heap) : Option Heap :=
  if X.n = Y.n ∧ X.p = Y.p then some (copy (X.n * X.p) Y.data 1 X.data 1 h) else none

/-- `evectmatrix_copy_slice`, evectmatrix.c:46-62 (BLAS `copy` does nothing for a negative count). -/
def copySlice (X Y : EM) (ix iy p : ℤ) (h : Heap) : Option Heap :=
  if ix + p ≤ X.p ∧ iy + p ≤ Y.p ∧ ix ≥ 0 ∧ iy ≥ 0 ∧ X.n = Y.n then
    if ix = 0 ∧ iy = 0 ∧ p = X.p ∧ p = Y.p then emCopy X Y h
    else if p = 1 then some (copy X.n (Y.data.add iy.toNat) Y.p (X.data.add ix.toNat) X.p h)
    else some ((List.range X.n).foldl (fun h i =>
      copy p.toNat (Y.data.add (iy.toNat + i * Y.p)) 1 (X.data.add (ix.toNat + i * X.p)) 1 h) h)
  else none

/-- `evectmatrix_resize`, evectmatrix.c:69-90. -/
def emResize (A : EM) (p : ℕ) (preserve : Bool) (h : Heap) : Option (EM × Heap) :=
  if p ≤ A.allocP then
    let h := if preserve then
        (if p < A.p then moveAll A.data A.p p (loop2 A.n p) h else moveAll A.data A.p p (loop2 A.n A.p).reverse h)
      else h
    some ({ A with p := p }, h)
  else none

open Classical in
/-- `evectmatrix_aXpbY`, evectmatrix.c:93-102. -/
noncomputable def emaXpbY (a : ℝ) (X : EM) (b : ℝ) (Y : EM) (h : Heap) : Option Heap :=
  if X.n = Y.n ∧ X.p = Y.p then
    let h := if a ≠ 1 then scal (X.n * X.p) a X.data 1 h else h
    some (axpy (X.n * X.p) b Y.data 1 X.data 1 h)
  else none

/-- `evectmatrix_aXpbYS_sub`, evectmatrix.c:108-124.  The second `CHECK` is `Soffset + (Y.p-1)*S.p + Y.p <= S.p*S.p` in C's
signed integers. -/
noncomputable def emaXpbYSsub (a : ℝ) (X : EM) (b : ℝ) (Y : EM) (S : SQ) (soff : ℕ) (sd : Bool) (h : Heap) : Option Heap :=
  if S.p = 0 then emaXpbY a X b Y h
  else if X.n = Y.n ∧ X.p = Y.p ∧ X.p ≤ S.p then
    if (soff : ℤ) + ((Y.p : ℤ) - 1) * S.p + Y.p ≤ S.p * S.p then
      gemm .N (dag sd) X.n X.p X.p b Y.data Y.p (S.data.add soff) S.p a X.data X.p h
    else none
  else none

/-- `evectmatrix_XeYS`, evectmatrix.c:128-132. -/
noncomputable def emXeYS (X Y : EM) (S : SQ) (sherm : Bool) (h : Heap) : Option Heap :=
  if S.p = 0 ∨ S.p = Y.p then emaXpbYSsub 0 X 1 Y S 0 sherm h else none

/-- `evectmatrix_XpaYS`, evectmatrix.c:135-140. -/
noncomputable def emXpaYS (X : EM) (a : ℝ) (Y : EM) (S : SQ) (sd : Bool) (h : Heap) : Option Heap :=
  if S.p = 0 ∨ S.p = Y.p then emaXpbYSsub 1 X a Y S 0 sd h else none

/-- `memset(d, 0, sizeof(scalar) * n)`. -/
def zero (d : Ptr) (n : ℕ) (h : Heap) : Heap := (List.range n).foldl (fun h i => wr h d i 0) h

/-- `evectmatrix_XtX`, evectmatrix.c:143-176. -/
noncomputable def emXtX (U : SQ) (X : EM) (S : SQ) (h : Heap) : Option Heap :=
  if X.p = U.p ∧ U.p ≤ S.allocP then
    let h := zero S.data (U.p * U.p) h
    match herk true .C X.p X.n 1 X.data X.p 0 S.data U.p h with
    | none => none
    | some h =>
      let h := mirrorUpper S.data U.p h
      some (copy (U.p * U.p) S.data 1 U.data 1 h)
  else none

/-- `evectmatrix_XtY_slice2`, evectmatrix.c:181-201. -/
noncomputable def emXtYslice2 (U : SQ) (X Y : EM) (ix iy p q iu : ℕ) (S1 S2 : SQ) (h : Heap) : Option Heap :=
  if ix + p ≤ X.p ∧ iy + q ≤ Y.p ∧ X.n = Y.n ∧ p = U.p ∧ q ≤ p ∧ p ≤ S1.allocP ∧ p ≤ S2.allocP then
    let h := zero S1.data (U.p * U.p) h
    match gemm .C .N p q X.n 1 (X.data.add ix) X.p (Y.data.add iy) Y.p 0 S1.data q h with
    | none => none
    | some h =>
      let h := copy (p * q) S1.data 1 S2.data 1 h
      some ((loop2 p q).foldl (fun h t => wr h U.data (t.1 * p + t.2 + iu) (rd h S2.data (t.1 * q + t.2))) h)
  else none

/-- `evectmatrix_XtY_slice`, evectmatrix.c:205-209. -/
noncomputable def emXtYslice (U : SQ) (X Y : EM) (ix iy p : ℕ) (S : SQ) (h : Heap) : Option Heap :=
  emXtYslice2 U X Y ix iy p p 0 S U h

/-- `evectmatrix_XtY`, evectmatrix.c:212-217. -/
noncomputable def emXtY (U : SQ) (X Y : EM) (S : SQ) (h : Heap) : Option Heap :=
  if X.p = Y.p then emXtYslice U X Y 0 0 X.p S h else none

/-- `evectmatrixXtY_sub`, evectmatrix.c:222-243. -/
noncomputable def emXtYsub (U : SQ) (uoff : ℕ) (X Y : EM) (S : SQ) (h : Heap) : Option Heap :=
  if X.p = Y.p ∧ X.n = Y.n ∧ U.p ≥ Y.p ∧ (uoff : ℤ) + ((Y.p : ℤ) - 1) * U.p + Y.p ≤ U.p * U.p ∧ Y.p ≤ S.allocP then
    let h := zero S.data (Y.p * Y.p) h
    match gemm .C .N X.p X.p X.n 1 X.data X.p Y.data Y.p 0 S.data Y.p h with
    | none => none
    | some h => some ((List.range Y.p).foldl (fun h i => copy Y.p (S.data.add (i * Y.p)) 1 (U.data.add (uoff + i * U.p)) 1 h) h)
  else none

/-- `matrix_XtY_diag`, matrices.c:80-92: the value accumulated in `diag[j]`; the two arrays `X`, `Y` are not `diag`. -/
noncomputable def xtyDiag (X Y : Ptr) (n p : ℕ) (h : Heap) (j : ℕ) : ℂ :=
  (List.range n).foldl (fun s i =>
    let b := rd h X (i * p + j)
    let c := rd h Y (i * p + j)
    ⟨s.re + (b.re * c.re + b.im * c.im), s.im + (b.re * c.im - b.im * c.re)⟩) 0

/-- `evectmatrix_traceXtY`, evectmatrix.c:283-296. -/
noncomputable def emTraceXtY (X Y : EM) (h : Heap) : Option ℂ :=
  if X.p = Y.p ∧ X.n = Y.n then some (dotc (X.n * X.p) X.data 1 Y.data 1 h) else none

/-- `matrix_XpaY_diag_real`, matrices.c:140-153. -/
noncomputable def xpaYdiag (X : Ptr) (a : ℝ) (Y : Ptr) (diag : ℕ → ℝ) (n p : ℕ) (h : Heap) : Heap :=
  (loop2 n p).foldl (fun h t =>
    let d := a * diag t.2
    let x := rd h X (t.1 * p + t.2)
    let y := rd h Y (t.1 * p + t.2)
    wr h X (t.1 * p + t.2) ⟨x.re + d * y.re, x.im + d * y.im⟩) h

/-- `matrix_X_diag_real_pY_diag_real`, matrices.c:157-172. -/
noncomputable def xdiagPydiag (X : Ptr) (d1 : ℕ → ℝ) (Y : Ptr) (d2 : ℕ → ℝ) (n p : ℕ) (h : Heap) : Heap :=
  (loop2 n p).foldl (fun h t =>
    let x := rd h X (t.1 * p + t.2)
    let y := rd h Y (t.1 * p + t.2)
    wr h X (t.1 * p + t.2) ⟨d1 t.2 * x.re + d2 t.2 * y.re, d1 t.2 * x.im + d2 t.2 * y.im⟩) h

/-! ### Scheme interface, mpb/matrix-smob.c -/

/-- `evectmatrix_slice2scm`, matrix-smob.c:135-146; `fresh` is the newly allocated array (create_evectmatrix, matrices.c:28-50). -/
def slice2scm (m : EM) (pStart p : ℤ) (fresh : Ptr) (h : Heap) : Option (EM × Heap) :=
  if pStart ≥ 0 ∧ pStart + p ≤ m.p ∧ p ≥ 0 then
    let mp : EM := ⟨m.n, p.toNat, p.toNat, fresh⟩
    (copySlice mp m 0 pStart p h).map fun h => (mp, h)
  else none

/-- `get_eigenvectors`, matrix-smob.c:269-274 (after init-params). -/
def getEigenvectors (H : EM) (bStart numBands : ℤ) (fresh : Ptr) (h : Heap) : Option (EM × Heap) :=
  slice2scm H (bStart - 1) numBands fresh h

/-- `set_eigenvectors`, matrix-smob.c:276-284 (the matrix part; the current field is reset as well). -/
def setEigenvectors (H m : EM) (bStart : ℤ) (h : Heap) : Option Heap := copySlice H m (bStart - 1) 0 m.p h

/-- `scale_eigenvector`, matrix-smob.c:335-349 (complex build). -/
noncomputable def scaleEigenvector (H : EM) (b : ℤ) (s : ℂ) (h : Heap) : Option Heap :=
  if b > 0 ∧ b ≤ H.p then some (scal H.n s (H.data.add (b - 1).toNat) H.p h) else none

/-- `sqmatrix_ref`, matrix-smob.c:206-216. -/
def sqRef (m : SQ) (i j : ℤ) (h : Heap) : Option ℂ :=
  if i ≥ 0 ∧ j ≥ 0 ∧ i < m.p ∧ j < m.p then some (rd h m.data (i * m.p + j).toNat) else none

/-- `sqmatrix_set`, matrix-smob.c:218-225. -/
def sqSet (m : SQ) (i j : ℤ) (c : ℂ) (h : Heap) : Option Heap :=
  if i ≥ 0 ∧ j ≥ 0 ∧ i < m.p ∧ j < m.p then some (wr h m.data (i * m.p + j).toNat c) else none

/-- `sqmatrix_diagm`, matrix-smob.c:242-254; `fresh` is the newly allocated array. -/
def diagm (d : List ℂ) (fresh : Ptr) (h : Heap) : SQ × Heap :=
  let p := d.length
  let h := (List.range (p * p)).foldl (fun h i => wr h fresh i 0) h
  (⟨p, p, fresh⟩, (List.range p).foldl (fun h i => wr h fresh (i * p + i) (d[i]?.getD 0)) h)

end Mpb.Mat

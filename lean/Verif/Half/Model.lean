import Verif.IO.Model

/-!
# Model of the output of fields with inversion symmetry

`maxwell_vectorfield_otherhalf`, `maxwell_cscalarfield_otherhalf`, `maxwell_scalarfield_otherhalf` (src/maxwell/maxwell_op.c:637-1175; the three bodies differ only in the macros copying one element) and the
part of `output_field_to_file` and `output_scalarfield` (mpb/fields.c:937-1140) that places the two halves in the file.

The functions are written once for an array of elements of a type `V`: `mul p v` is `ASSIGN_VP`'s product with a phase and `conj` is `ASSIGN_CV`'s conjugation.  For vector fields `V` is the triple of
components, for complex scalar fields a complex number; for real scalar fields `V` is a real number and both operations are the identity, as in the C.
-/

namespace Mpb.Half

open Mpb.IO

/-- The rank, maxwell_op.c:655. -/
def rank (nx ny nz : ℕ) : ℕ := if nz = 1 then (if ny = 1 then 1 else 2) else 3

/-- The phase factors `p`, maxwell_op.c:680-695: `exp(-2 pi i theta)`. -/
noncomputable def ph (theta : ℝ) : ℂ := ⟨Real.cos (theta * -(2 * Real.pi)), Real.sin (theta * -(2 * Real.pi))⟩

/-- The choice of the phase factor by `xdiff` and `ydiff`, maxwell_op.c:742-763, from the phases assigned to the two leading axes and to the truncated one. -/
noncomputable def phase (kx ky kz : ℝ) (xdiff ydiff : Bool) : ℂ :=
  match xdiff, ydiff with
  | true, true => ph (kx + kz + ky)
  | true, false => ph (kx + kz)
  | false, true => ph (ky + kz)
  | false, false => ph kz

variable {V : Type} (mul : ℂ → V → V) (conj : V → V)

/-- One exchange of the elements `ij` and `ijc`, each multiplied by the phase, maxwell_op.c:744-746. -/
def swapAt (p : ℂ) (ij ijc : ℕ) (f : ℕ → V) : ℕ → V :=
  let tmp := mul p (f ijc)
  let f := Function.update f ijc (mul p (f ij))
  Function.update f ij tmp

/-- The mirrored row `ixc`, maxwell_op.c:721-731; `zs`: the process has the row 0. -/
def rowc (zs : Bool) (nx ix : ℕ) : ℕ := if zs then (nx - ix) % nx else nx - 1 - ix

/-- The iterations (ix, iy, j) of the exchange in three dimensions, maxwell_op.c:718-741. -/
def iters3 (zs : Bool) (nx ny nNew : ℕ) : List (ℕ × ℕ × ℕ) :=
  let nxmax : ℤ := if zs then nx else (nx : ℤ) - 1
  ((List.range (nx + 1)).filter fun ix : ℕ => 2 * (ix : ℤ) ≤ nxmax).flatMap fun ix => (List.range ny).flatMap fun iy =>
    let i := ix * ny + iy
    let ic := rowc zs nx ix * ny + (ny - iy) % ny
    if ic < i then []
    else (List.range' 1 (if ic = i then (nNew + 1) / 2 else nNew)).map fun j => (ix, iy, j)

/-- The exchange in three dimensions, maxwell_op.c:716-765. -/
noncomputable def swap3 (zs : Bool) (nx ny nNew nStored : ℕ) (kx ky kz : ℝ) (f : ℕ → V) : ℕ → V :=
  (iters3 zs nx ny nNew).foldl (fun f t =>
    let xdiff := if zs then decide (t.1 ≠ 0) else true
    let ydiff := decide (t.2.1 ≠ 0)
    swapAt mul (phase kx ky kz xdiff ydiff)
      ((t.1 * ny + t.2.1) * nStored + t.2.2)
      ((rowc zs nx t.1 * ny + (ny - t.2.1) % ny) * nStored + (nNew + 1 - t.2.2)) f) f

/-- Conjugate and close the holes, maxwell_op.c:770-774 and (serial) 822-830. -/
def compact (nOther nNew nStored : ℕ) (f : ℕ → V) : ℕ → V :=
  ((List.range nOther).flatMap fun i => (List.range' 1 nNew).map fun j => (i, j)).foldl (fun f t =>
    Function.update f (t.1 * nNew + (t.2 - 1)) (conj (f (t.1 * nStored + t.2)))) f

/-- The iterations (i, j) of the exchange in one and two dimensions, serial, maxwell_op.c:784-797. -/
def iters2 (nx nNew : ℕ) : List (ℕ × ℕ) :=
  ((List.range (nx + 1)).filter fun i => 2 * i ≤ nx).flatMap fun i =>
    (List.range' 1 (if (nx - i) % nx = i then (nNew + 1) / 2 else nNew)).map fun j => (i, j)

/-- The exchange in one and two dimensions, serial, maxwell_op.c:784-816. -/
noncomputable def swap2 (nx nNew nStored : ℕ) (kx kz : ℝ) (f : ℕ → V) : ℕ → V :=
  (iters2 nx nNew).foldl (fun f t =>
    swapAt mul (if t.1 ≠ 0 then ph (kx + kz) else ph kz) (t.1 * nStored + t.2) ((nx - t.1) % nx * nStored + (nNew + 1 - t.2)) f) f

/-- The three `otherhalf` functions, serial. -/
noncomputable def otherhalf (nx ny nz : ℕ) (k : ℝ × ℝ × ℝ) (f : ℕ → V) : ℕ → V :=
  if rank nx ny nz = 3 then
    let nStored := nz / 2 + 1
    compact conj (nx * ny) (nz - nStored) nStored (swap3 mul true nx ny (nz - nStored) nStored k.1 k.2.1 k.2.2 f)
  else if rank nx ny nz = 2 then
    let nStored := ny / 2 + 1
    compact conj nx (ny - nStored) nStored (swap2 mul nx (ny - nStored) nStored k.1 k.2.1 f)
  else
    let nStored := nx / 2 + 1
    compact conj 1 (nx - nStored) nStored (swap2 mul 1 (nx - nStored) nStored 0 k.1 f)

/-! ## MPI: the arrays are transposed, first the local `y`, then `x`, then `z` -/

/-- `jmin` in two dimensions, maxwell_op.c:664-667. -/
def jmin (ys : ℕ) : ℕ := if ys = 0 then 1 else 0

/-- `n_last_new` in two dimensions, maxwell_op.c:663-669; `ny` is the whole grid's, `ly` the process's number of rows, `ys` its first row. -/
def nNewM (ny ly ys : ℕ) : ℕ :=
  let n := if ys = 0 then ly - 1 else ly
  if ys + ly = ny / 2 + 1 ∧ ny % 2 = 0 then n - 1 else n

/-- The iterations (i, j) of the exchange in two dimensions with MPI, maxwell_op.c:782-803: the inner loop is left when `ijc < ij`. -/
def itersM (nx jm nNew : ℕ) : List (ℕ × ℕ) :=
  (List.range nx).flatMap fun i =>
    ((List.range' jm nNew).takeWhile fun j => ¬ ((nNew + jm + jm - 1 - j) * nx + (nx - i) % nx < j * nx + i)).map fun j => (i, j)

/-- The exchange in two dimensions with MPI, maxwell_op.c:782-816. `jmax + jmin = nNew + jmin - 1 + jmin`. -/
noncomputable def swapM (nx jm nNew : ℕ) (kx kz : ℝ) (f : ℕ → V) : ℕ → V :=
  (itersM nx jm nNew).foldl (fun f t =>
    swapAt mul (if t.1 ≠ 0 then ph (kx + kz) else ph kz) (t.2 * nx + t.1) ((nNew + jm + jm - 1 - t.2) * nx + (nx - t.1) % nx) f) f

/-- Conjugate and close the holes in two dimensions with MPI, maxwell_op.c:822-830. -/
def compactM (nx jm nNew : ℕ) (f : ℕ → V) : ℕ → V :=
  ((List.range nx).flatMap fun i => (List.range' jm nNew).map fun j => (i, j)).foldl (fun f t =>
    Function.update f ((t.2 - jm) * nx + t.1) (conj (f (t.2 * nx + t.1)))) f

/-- The three `otherhalf` functions with MPI; `k` is in the transposed order (y, x, z) in which the caller gives it, fields.c:1057-1062.  `none`: the rank is not supported (a `CHECK`), or, in three
dimensions, the process holds no rows and `local_y_start` is 0: the loop over `ix` is entered once (`2*0 <= nxmax = 0`) and `(nx - ix) % nx` divides by `nx = local_ny = 0`, maxwell_op.c:718-722. -/
noncomputable def otherhalfM (nx ny nz ly ys : ℕ) (k : ℝ × ℝ × ℝ) (f : ℕ → V) : Option (ℕ → V) :=
  if rank nx ny nz = 3 then
    let nStored := nz / 2 + 1
    if ly = 0 ∧ ys = 0 then none
    else some (compact conj (ly * nx) (nz - nStored) nStored (swap3 mul (ys = 0) ly nx (nz - nStored) nStored k.1 k.2.1 k.2.2 f))
  else if rank nx ny nz = 2 then
    some (compactM conj nx (jmin ys) (nNewM ny ly ys) (swapM mul nx (jmin ys) (nNewM ny ly ys) k.2.1 k.1 f))
  else none

/-! ## Placing the halves in the file -/

/-- A block of the grid: its size and its first point. -/
structure Blk where
  ld : ℕ × ℕ × ℕ
  start : ℕ × ℕ × ℕ

/-- The block of the first half, serial, fields.c:1069-1080. -/
def firstBlk (nx ny nz : ℕ) : Blk :=
  if rank nx ny nz = 3 then ⟨(nx, ny, nz / 2 + 1), (0, 0, 0)⟩
  else if rank nx ny nz = 2 then ⟨(nx, ny / 2 + 1, nz), (0, 0, 0)⟩
  else ⟨(nx / 2 + 1, ny, nz), (0, 0, 0)⟩

/-- The block of the other half, serial, fields.c:1074-1078 and 1116-1120. -/
def otherBlk (nx ny nz : ℕ) : Blk :=
  if rank nx ny nz = 3 then ⟨(nx, ny, nz - (nz / 2 + 1)), (0, 0, nz / 2 + 1)⟩
  else if rank nx ny nz = 2 then ⟨(nx, ny - (ny / 2 + 1), nz), (0, ny / 2 + 1, 0)⟩
  else ⟨(nx - (nx / 2 + 1), ny, nz), (nx / 2 + 1, 0, 0)⟩

/-- The block of the first half with MPI, fields.c:1020-1025, 1045. -/
def firstBlkM (nx _ny nz ly ys : ℕ) : Blk :=
  if nz = 1 then ⟨(ly, nx, nz), (ys, 0, 0)⟩ else ⟨(ly, nx, nz / 2 + 1), (ys, 0, 0)⟩

/-- The blocks of the other half with MPI, in the order of writing, each with the number of grid points before it in the array, fields.c:1027-1056 and 1116-1135. -/
def otherBlksM (nx ny nz ly ys : ℕ) : List (Blk × ℕ) :=
  if nz = 1 then
    let size := if ys = 0 then ly - 1 else ly
    let start := ny - (ys + ly - 1)
    let nyq := ys + ly = ny / 2 + 1 ∧ ny % 2 = 0
    let size := if nyq then size - 1 else size
    let start := if nyq then start + 1 else start
    [(⟨(size, nx, nz), (start, 0, 0)⟩, 0)]
  else
    let lastStart := nz / 2 + 1
    let lastSize := nz - lastStart
    if ys = 0 then
      [(⟨(ly - 1, nx, lastSize), (ny - (ly - 1), 0, lastStart)⟩, nx * lastSize), (⟨(1, nx, lastSize), (0, 0, lastStart)⟩, 0)]
    else
      [(⟨(ly, nx, lastSize), (ny - (ys + ly - 1), 0, lastStart)⟩, 0)]

/-- The vectors of a field, and back. -/
def triples (f : ℕ → ℂ) : ℕ → Fin 3 → ℂ := fun a c => f (3 * a + c)
def flat (F : ℕ → Fin 3 → ℂ) : ℕ → ℂ := fun a => F (a / 3) ⟨a % 3, Nat.mod_lt _ (by decide)⟩

/-- Products with a phase and conjugation of a vector. -/
def mulV (p : ℂ) (v : Fin 3 → ℂ) : Fin 3 → ℂ := fun c => v c * p
def conjV (v : Fin 3 → ℂ) : Fin 3 → ℂ := fun c => (starRingEnd ℂ) (v c)

/-- What a process does to one dataset: a sequence of writes. -/
abbrev Act := Dataset → Option Dataset

def runActs : List Act → Dataset → Option Dataset
  | [], d => some d
  | a :: as, d => (a d).bind (runActs as)

/-- The writes of `output_field_to_file` to the dataset of component `comp`, real or imaginary part `ri`, for a vector field, serial, fields.c:1084-1136. -/
noncomputable def actsVector (nx ny nz : ℕ) (which : ℤ) (k : ℝ × ℝ × ℝ) (c0 : ℕ → ℝ) (field : ℕ → ℂ) (comp ri : ℕ) : List Act :=
  let b := firstBlk nx ny nz
  let b' := otherBlk nx ny nz
  let field1 := (writeComplexField (nx, ny, nz) b.ld b.start which 3 (some k) c0 field (fun _ _ _ => 0)).1
  let field2 := flat (otherhalf mulV conjV nx ny nz k (triples field1))
  [fun d => (writeComplexField (nx, ny, nz) b.ld b.start which 3 (some k) c0 field (fun _ _ => d)).2 comp ri,
   fun d => (writeComplexField (nx, ny, nz) b'.ld b'.start which 3 none c0 field2 (fun _ _ => d)).2 comp ri]

/-- The number of elements of the contiguous copy made before writing the other half in two dimensions with MPI, as C computes it in `int`: `first_dim_size * nx` (fields.c:1029-1039, matrixio.c:662-664). -/
def copyLen2 (nx ny ly ys : ℕ) : ℤ :=
  let size : ℤ := if ys = 0 then (ly : ℤ) - 1 else ly
  let size := if ys + ly = ny / 2 + 1 ∧ ny % 2 = 0 then size - 1 else size
  size * nx

/-- The same by a process with MPI; `k` is in the order y, x, z.  `none`: `otherhalfM`, or `CHK_MALLOC` of a negative number of elements, which is a huge `size_t` (matrixio.c:665, check.h:60-64). -/
noncomputable def actsVectorM (nx ny nz ly ys : ℕ) (which : ℤ) (k : ℝ × ℝ × ℝ) (c0 : ℕ → ℝ) (field : ℕ → ℂ) (comp ri : ℕ) : Option (List Act) :=
  let b := firstBlkM nx ny nz ly ys
  let field1 := (writeComplexField (ny, nx, nz) b.ld b.start which 3 (some k) c0 field (fun _ _ _ => 0)).1
  if nz = 1 ∧ copyLen2 nx ny ly ys < 0 then none
  else (otherhalfM mulV conjV nx ny nz ly ys k (triples field1)).map fun F =>
    (fun d => (writeComplexField (ny, nx, nz) b.ld b.start which 3 (some k) c0 field (fun _ _ => d)).2 comp ri) ::
    (otherBlksM nx ny nz ly ys).map fun b' => fun d =>
      (writeComplexField (ny, nx, nz) b'.1.ld b'.1.start which 3 none c0 (fun a => flat F (3 * b'.2 + a)) (fun _ _ => d)).2 comp ri

/-- `fieldio_write_real_vals`, fieldio.c:132-150. -/
def writeRealVals (dims ld start : ℕ × ℕ × ℕ) (c0 vals : ℕ → ℝ) (d : Dataset) : Option Dataset :=
  writeReal (firstDims (fieldRank dims) ld) (firstDims (fieldRank dims) start) 1 vals c0 d

/-- The writes of `output_scalarfield`, serial, fields.c:937-994. -/
noncomputable def actsScalar (nx ny nz : ℕ) (c0 vals : ℕ → ℝ) : List Act :=
  let b := firstBlk nx ny nz
  let b' := otherBlk nx ny nz
  [writeRealVals (nx, ny, nz) b.ld b.start c0 vals,
   writeRealVals (nx, ny, nz) b'.ld b'.start c0 (otherhalf (fun _ v => v) (fun v => v) nx ny nz (0, 0, 0) vals)]

/-- The same with MPI. -/
noncomputable def actsScalarM (nx ny nz ly ys : ℕ) (c0 vals : ℕ → ℝ) : Option (List Act) :=
  let b := firstBlkM nx ny nz ly ys
  (otherhalfM (fun _ v => v) (fun v => v) nx ny nz ly ys (0, 0, 0) vals).map fun F =>
    writeRealVals (ny, nx, nz) b.ld b.start c0 vals ::
    (otherBlksM nx ny nz ly ys).map fun b' => writeRealVals (ny, nx, nz) b'.1.ld b'.1.start c0 (fun a => F (b'.2 + a))

end Mpb.Half

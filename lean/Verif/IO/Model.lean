import Verif.Core.Mem
import Mathlib.Data.Complex.Basic
import Mathlib.Analysis.SpecialFunctions.Trigonometric.Basic

/-!
# Model of src/matrixio: matrixio.c, evectmatrixio.c, fieldio.c

HDF5 is external.  A dataset is a function from multi-indices to numbers; `h5write` and `h5read` are the contract of `H5Dwrite` and `H5Dread` with a hyperslab selected in the file and one in memory:
both selections are gone through in row-major order.
-/

namespace Mpb.IO

/-- Row-major offset of a multi-index. -/
def rm : List ℕ → List ℕ → ℕ
  | _ :: ds, i :: is => i * ds.prod + rm ds is
  | _, _ => 0

/-- All multi-indices below `count`, in row-major order. -/
def boxIdx : List ℕ → List (List ℕ)
  | [] => [[]]
  | d :: ds => (List.range d).flatMap fun i => (boxIdx ds).map fun is => i :: is

/-- Sum and product of multi-indices. -/
def addIdx (a b : List ℕ) : List ℕ := List.zipWith (· + ·) a b
def mulIdx (a b : List ℕ) : List ℕ := List.zipWith (· * ·) a b

/-- A dataset. -/
abbrev Dataset := List ℕ → ℝ

/-- `H5Dwrite`: element number `idx` of the memory selection (dimensions `memDims`, strides `memStr`) goes to `fstart + idx`. -/
def h5write (fstart count memDims memStr : List ℕ) (mem : ℕ → ℝ) (file : Dataset) : Dataset :=
  (boxIdx count).foldl (fun f idx => Function.update f (addIdx fstart idx) (mem (rm memDims (mulIdx idx memStr)))) file

/-- `H5Dread`. -/
def h5read (fstart count memDims memStr : List ℕ) (file : Dataset) (mem : ℕ → ℝ) : ℕ → ℝ :=
  (boxIdx count).foldl (fun m idx => Function.update m (rm memDims (mulIdx idx memStr)) (file (addIdx fstart idx))) mem

/-- Replace the last entry. -/
def mapLast (f : ℕ → ℕ) : List ℕ → List ℕ
  | [] => []
  | [a] => [f a]
  | a :: b :: l => a :: mapLast f (b :: l)

/-- The main loop of the copy, matrixio.c:675-684: four elements at a time, from `i`; gives the array and the final `i`. -/
def copy4 (data : ℕ → ℝ) (stride N i : ℕ) (c : ℕ → ℝ) : (ℕ → ℝ) × ℕ :=
  if i < N then
    let d0 := data (i * stride)
    let d1 := data ((i + 1) * stride)
    let d2 := data ((i + 2) * stride)
    let d3 := data ((i + 3) * stride)
    copy4 data stride N (i + 4) (Function.update (Function.update (Function.update (Function.update c i d0) (i + 1) d1) (i + 2) d2) (i + 3) d3)
  else (c, i)
termination_by N - i

/-- The contiguous copy, matrixio.c:665-685: `N & 3` elements one by one, then four at a time, then `CHECK(i == N)` (`none` if it fails).  `c0` is the content of the fresh memory. -/
def copyStrided (data : ℕ → ℝ) (stride N : ℕ) (c0 : ℕ → ℝ) : Option (ℕ → ℝ) :=
  let c := (List.range (N % 4)).foldl (fun c i => Function.update c i (data (i * stride))) c0
  let r := copy4 data stride N (N % 4) c
  if r.2 = N then some r.1 else none

/-- `matrixio_write_real_data`, matrixio.c:620-743: the dataset after the call; `none` if a `CHECK` fails.  `c0` is the content of fresh memory.  With a contiguous copy (or stride 1) the memory
selection has stride 1. -/
def writeReal (localDims localStart : List ℕ) (stride : ℕ) (data c0 : ℕ → ℝ) (file : Dataset) : Option Dataset :=
  (if stride > 1 then copyStrided data stride localDims.prod c0 else some data).map fun copy =>
    if localDims.prod > 0 then
      let str := mapLast (fun _ => 1) (localDims.map fun _ => 1)
      h5write localStart localDims (mapLast (· * 1) localDims) str copy file
    else file

/-- `matrixio_read_real_data`, matrixio.c:781-918, into an existing array: `fdims` are the dimensions found in the file, `dims` the expected ones.  `none`: a `CHECK` fails. -/
def readReal (fdims dims : List ℕ) (localDim0 localDim0Start stride : ℕ) (file : Dataset) (data : ℕ → ℝ) : Option (ℕ → ℝ) :=
  if dims.length > 0 then
    if dims.length = fdims.length then
      if fdims = dims then
        let memDims := mapLast (· * stride) (fdims.set 0 localDim0)
        let str := mapLast (fun _ => stride) (dims.map fun _ => 1)
        some (h5read ((dims.map fun _ => 0).set 0 localDim0Start) (dims.set 0 localDim0) memDims str file data)
      else none
    else none
  else none

/-- The rows of one process: `localN` rows starting at `Nstart`, in an array of `localN * c * p` scalars of `nv` reals. -/
structure Slab where
  nstart : ℕ
  localN : ℕ
  data : ℕ → ℝ

/-- `evectmatrixio_writeall_raw`, evectmatrixio.c:29-50, the write by one process. -/
def writeallRaw (c p nv : ℕ) (s : Slab) (c0 : ℕ → ℝ) (file : Dataset) : Option Dataset :=
  writeReal [s.localN, c, p, nv] [s.nstart, 0, 0, 0] 1 s.data c0 file

/-- All processes in turn. -/
def writeAllProcs (c p nv : ℕ) (c0 : ℕ → ℝ) : List Slab → Dataset → Option Dataset
  | [], f => some f
  | s :: ss, f => (writeallRaw c p nv s c0 f).bind fun f => writeAllProcs c p nv c0 ss f

/-- `evectmatrixio_readall_raw`, evectmatrixio.c:52-70, by the process with rows `s`; `fdims` are the file's dimensions. -/
def readallRaw (fdims : List ℕ) (N c p nv : ℕ) (s : Slab) (file : Dataset) : Option (ℕ → ℝ) :=
  readReal fdims [N, c, p, nv] s.localN s.nstart 1 file s.data

/-- `strstr`: the index of the first occurrence. -/
def strstr (hay needle : List Char) : Option ℕ :=
  if needle.isPrefixOf hay then some 0
  else match hay with
    | [] => none
    | _ :: t => (strstr t needle).map (· + 1)

/-- `FNAME_SUFFIX`, matrixio.c:308. -/
def suffix : List Char := ['.', 'h', '5']

/-- `add_fname_suffix`, matrixio.c:310-327.  The comparison is between the position of the first occurrence (if any) and the position `oldlen - suflen`, which is negative for short names. -/
def addSuffix (fname : List Char) : List Char :=
  if (strstr fname suffix).map (fun i : ℕ => (i : ℤ)) ≠ some ((fname.length : ℤ) - suffix.length) then fname ++ suffix else fname

/-! ## fieldio_write_complex_field -/

/-- The phase tables, fieldio.c:53-71: `cos` and `sin` of `s[d] * (i + start[d])`. -/
noncomputable def phaseTab (k : ℝ) (dim start i : ℕ) : ℂ :=
  let s := 2 * Real.pi * k / dim
  let phase := s * (i + start)
  ⟨Real.cos phase, Real.sin phase⟩

/-- The phase at local point `t`, fieldio.c:75-90. -/
noncomputable def phaseAt (dims start : ℕ × ℕ × ℕ) (k : ℝ × ℝ × ℝ) (t : ℕ × ℕ × ℕ) : ℂ :=
  let px := phaseTab k.1 dims.1 start.1 t.1
  let q := phaseTab k.2.1 dims.2.1 start.2.1 t.2.1
  let py : ℂ := ⟨px.re * q.re - px.im * q.im, px.re * q.im + px.im * q.re⟩
  let z := phaseTab k.2.2 dims.2.2 start.2.2 t.2.2
  ⟨py.re * z.re - py.im * z.im, py.re * z.im + py.im * z.re⟩

/-- The body of the loop for one point, fieldio.c:85-97: three elements are multiplied by the phase `p`. -/
def mulAt (localDims : ℕ × ℕ × ℕ) (p : ℂ) (f : ℕ → ℂ) (t : ℕ × ℕ × ℕ) : ℕ → ℂ :=
  let ijk := ((t.1 * localDims.2.1 + t.2.1) * localDims.2.2 + t.2.2) * 3
  (List.range 3).foldl (fun f c =>
    let v := f (ijk + c)
    Function.update f (ijk + c) ⟨v.re * p.re - v.im * p.im, v.im * p.re + v.re * p.im⟩) f

/-- The loop multiplying the field by the phase, fieldio.c:74-100, on the array of complex numbers `field`; three components at every point whatever `num_components`. -/
noncomputable def mulPhase (dims localDims start : ℕ × ℕ × ℕ) (k : ℝ × ℝ × ℝ) (field : ℕ → ℂ) : ℕ → ℂ :=
  (loop3 localDims.1 localDims.2.1 localDims.2.2).foldl (fun f t => mulAt localDims (phaseAt dims start k t) f t) field

/-- The array of reals behind an array of complex numbers. -/
def asReal (field : ℕ → ℂ) (a : ℕ) : ℝ := if a % 2 = 0 then (field (a / 2)).re else (field (a / 2)).im

/-- The rank of the dataset, fieldio.c:46. -/
def fieldRank (dims : ℕ × ℕ × ℕ) : ℕ := if dims.2.2 = 1 then (if dims.2.1 = 1 then 1 else 2) else 3

/-- The first `rank` of three numbers. -/
def firstDims (rank : ℕ) (d : ℕ × ℕ × ℕ) : List ℕ := [d.1, d.2.1, d.2.2].take rank

/-- `fieldio_write_complex_field`, fieldio.c:33-130: the field afterwards and the datasets (component, 0 for real or 1 for imaginary part).  `k = none` is the NULL pointer. -/
noncomputable def writeComplexField (dims localDims start : ℕ × ℕ × ℕ) (which : ℤ) (numComponents : ℕ) (k : Option (ℝ × ℝ × ℝ)) (c0 : ℕ → ℝ) (field : ℕ → ℂ)
    (files : ℕ → ℕ → Dataset) : (ℕ → ℂ) × (ℕ → ℕ → Option Dataset) :=
  let field := match k with
    | some k => mulPhase dims localDims start k field
    | none => field
  let rank := fieldRank dims
  (field, fun comp ri =>
    if comp < numComponents ∧ ((comp : ℤ) = which ∨ which < 0) then
      writeReal (firstDims rank localDims) (firstDims rank start) (2 * numComponents) (fun a => asReal field (2 * comp + ri + a)) c0 (files comp ri)
    else some (files comp ri))

end Mpb.IO

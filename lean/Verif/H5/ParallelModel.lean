import Verif.H5.Model
import Verif.Dist.Model

/-!
# Output of a field by several processes (`HAVE_MPI`, complex build)

HDF5 as in `Verif.H5.Model`.  The processes write one file.  Without parallel HDF5 (`HAVE_H5PSET_FAPL_MPIO` undefined) each opens, writes and
closes it inside a critical section, in the order of their ranks (C29); with parallel HDF5 all have it open, files, datasets and attributes are
made by all together, and the blocks of a dataset arrive in any order.
-/

namespace Mpb.H5
open Mpb.IO Mpb.Dist

/-- The state used by `output_field_to_file` on `P` processes: as `Out`, with the part of the arrays each process holds (rows `ly` of the second
dimension, in the order y, x, z). -/
structure OutP (P : ℕ) where
  type : Char
  n : ℕ × ℕ × ℕ
  R : M3 ℝ
  currentK : V3 ℝ
  ly : Layout P
  field : Fin P → ℕ → ℂ
  vals : Fin P → ℕ → ℝ
  tensor : Fin P → ℕ → ℕ → Bool → Bool → ℕ → ℝ
  hermitian : Bool
  description : List Char

variable {P : ℕ}

namespace OutP

/-- `dims`, mpb/fields.c:1025-1027. -/
def dims (o : OutP P) : ℕ × ℕ × ℕ := (o.n.2.1, o.n.1, o.n.2.2)

/-- `local_dims`, mpb/fields.c:1026-1028. -/
def localDims (o : OutP P) (r : Fin P) : ℕ × ℕ × ℕ := (o.ly.size r, o.n.1, o.n.2.2)

/-- `start`, mpb/fields.c:1003, 1029. -/
def start (o : OutP P) (r : Fin P) : ℕ × ℕ × ℕ := (o.ly.start r, 0, 0)

/-- `output_k`, mpb/fields.c:1062-1067, 1095-1096. -/
def outputK (o : OutP P) : ℝ × ℝ × ℝ :=
  if o.type ∈ ['R', 'v'] then (0, 0, 0) else (V3.dot o.R.c1 o.currentK, V3.dot o.R.c0 o.currentK, V3.dot o.R.c2 o.currentK)

/-- `output_R`, mpb/fields.c:1068-1070. -/
def outputR (o : OutP P) : M3 ℝ := ⟨o.R.c1, o.R.c0, o.R.c2⟩

end OutP

/-! ## Without parallel HDF5 -/

/-- src/matrixio/matrixio.c:82-109 `write_attr` with `id.parallel`: only the master writes. -/
def writeAttrP (master : Bool) (f : File) (l : Loc) (name : Name) (a : Arr) : Res File := if master then writeAttr f l name a else .ok f

/-- src/matrixio/matrixio.c:164-181 `matrixio_write_string_attr`. -/
def writeStringAttrP (master : Bool) (f : File) (l : Loc) (name val : Option (List Char)) : Res File :=
  match name, val with
  | some n, some v => if n = [] ∨ v = [] then .ok f else writeAttrP master f l n ⟨[], .str v⟩
  | _, _ => .ok f

/-- src/matrixio/matrixio.c:183-217 `matrixio_write_data_attr`. -/
def writeDataAttrP (master : Bool) (f : File) (l : Loc) (name : Option Name) (val : ℕ → ℝ) (dims : List ℕ) : Res File :=
  match name with
  | some n => if n = [] then .ok f else writeAttrP master f l n ⟨dims, .num fun idx => val (rm dims idx)⟩
  | none => .ok f

/-- src/matrixio/matrixio.c:335-387 `matrixio_create`: the master creates the file, the others open what is there. -/
def createP (master : Bool) (old : Option File) : Res File :=
  if master then .ok (create old)
  else match old with
    | some f => .ok f
    | none => .error .stop

/-- src/matrixio/matrixio.c:536-589 `matrixio_create_dataset`: the master deletes an old dataset and creates the new one, the others open it.  The first
use of an invalid identifier stops the program, as in `createDataset`. -/
def createDatasetP (master : Bool) (f : File) (name : Name) (description : Option (List Char)) (dims : List ℕ) : Res File :=
  let f := if datasetExists f name then (if master then datasetDelete f name else f) else f
  if dims.length > 0 then
    if master then
      if (get f name).isSome then .error .stop
      else writeStringAttrP master (put f name (.dset ⟨dims, .num fun _ => 0⟩ [])) (.obj name) (some "description".toList) description
    else if datasetExists f name then writeStringAttrP master f (.obj name) (some "description".toList) description
    else .error .stop
  else .error .stop

/-- src/matrixio/fieldio.c:108-127 for a block of the grid. -/
def writeCompP (master : Bool) (n ld start : ℕ × ℕ × ℕ) (c0 : ℕ → ℝ) (numComponents : ℕ) (field : ℕ → ℂ) (comp ri : ℕ) (f : File) : Res File :=
  let name := compName numComponents comp ri
  (createDatasetP master f name none (firstDims (fieldRank n) n)).bind fun f =>
    writeData f name (firstDims (fieldRank n) ld) (firstDims (fieldRank n) start) (2 * numComponents) (fun a => asReal field (2 * comp + ri + a)) c0

/-- The datasets of src/matrixio/fieldio.c:33-130 `fieldio_write_complex_field`, in turn. -/
noncomputable def complexStepsP (master : Bool) (n ld start : ℕ × ℕ × ℕ) (c0 : ℕ → ℝ) (which : ℤ) (numComponents : ℕ) (k : ℝ × ℝ × ℝ) (field : ℕ → ℂ) :
    List (File → Res File) :=
  let field := mulPhase n ld start k field
  (List.range numComponents).flatMap fun (comp : ℕ) =>
    if (comp : ℤ) = which ∨ which < 0 then
      [writeCompP master n ld start c0 numComponents field comp 0, writeCompP master n ld start c0 numComponents field comp 1] else []

/-- mpb/fields.c:937-994 `output_scalarfield` and src/matrixio/fieldio.c:132-150 for a block of the grid. -/
def writeScalarP (master : Bool) (n ld start : ℕ × ℕ × ℕ) (c0 vals : ℕ → ℝ) (name : Name) (f : File) : Res File :=
  (createDatasetP master f name none (firstDims (fieldRank n) n)).bind fun f =>
    writeData f name (firstDims (fieldRank n) ld) (firstDims (fieldRank n) start) 1 vals c0

/-- mpb/fields.c:1240-1275. -/
def tensorStepsP (o : OutP P) (r : Fin P) (c0 : ℕ → ℝ) : List (File → Res File) :=
  let write := writeScalarP (r.val == 0) o.dims (o.localDims r) (o.start r) c0
  [false, true].flatMap fun inv => (List.range 3).flatMap fun c1 => ((List.range 3).filter (c1 ≤ ·)).flatMap fun c2 =>
    write (o.tensor r c1 c2 false inv) (tensorName inv c1 c2) ::
      (if o.hermitian ∧ c1 ≠ c2 then [write (o.tensor r c1 c2 true inv) (tensorName inv c1 c2 ++ ".i".toList)] else [])

/-- mpb/fields.c:1280-1291. -/
def finishP (o : OutP P) (master : Bool) : List (File → Res File) :=
  [fun f => writeDataAttrP master f .file (some "lattice vectors".toList) (arrR o.outputR) [3, 3],
    fun f => writeStringAttrP master f .file (some "description".toList) (some o.description)]

/-- mpb/fields.c:1000-1296 `output_field_to_file` with a field present, on process `r`: the file afterwards, `old` being the file before (`none` if
there is none). -/
noncomputable def outputRank (o : OutP P) (which : ℤ) (c0 : ℕ → ℝ) (r : Fin P) (old : Option File) : Res (Option File) :=
  let master : Bool := r.val == 0
  let k := o.outputK
  if o.type ∈ ['d', 'h', 'b', 'e', 'c', 'v'] then
    ((createP master old).bind (steps (complexStepsP master o.dims (o.localDims r) (o.start r) c0 which 3 k (o.field r) ++
      [fun f => writeDataAttrP master f .file (some "Bloch wavevector".toList) (arr3 k) [3]] ++ finishP o master))).map some
  else if o.type ∈ ['C'] then
    ((createP master old).bind (steps (complexStepsP master o.dims (o.localDims r) (o.start r) c0 which 1 k (o.field r) ++
      [fun f => writeDataAttrP master f .file (some "Bloch wavevector".toList) (arr3 k) [3]] ++ finishP o master))).map some
  else if o.type ∈ ['D', 'H', 'B', 'n', 'm', 'R'] then
    ((createP master old).bind (steps ([writeScalarP master o.dims (o.localDims r) (o.start r) c0 (o.vals r) "data".toList] ++
      (if o.type = 'n' then tensorStepsP o r c0 else []) ++ finishP o master))).map some
  else .ok old

/-- All processes, one after the other. -/
noncomputable def outputInTurn (o : OutP P) (which : ℤ) (c0 : ℕ → ℝ) (old : Option File) : Res (Option File) :=
  (List.finRange P).foldl (fun res r => res.bind (outputRank o which c0 r)) (.ok old)

/-! ## With parallel HDF5 -/

/-- The blocks of a dataset, written in the order given (src/matrixio/matrixio.c:620-743 on each process). -/
def writeBlocks (order : List (Fin P)) (name : Name) (n : ℕ × ℕ × ℕ) (ld start : Fin P → ℕ × ℕ × ℕ) (stride : ℕ) (data : Fin P → ℕ → ℝ) (c0 : ℕ → ℝ) (f : File) : Res File :=
  steps (order.map fun r f => writeData f name (firstDims (fieldRank n) (ld r)) (firstDims (fieldRank n) (start r)) stride (data r) c0) f

/-- src/matrixio/fieldio.c:108-127. -/
noncomputable def writeCompC (order : Name → List (Fin P)) (o : OutP P) (c0 : ℕ → ℝ) (field : Fin P → ℕ → ℂ) (comp ri : ℕ) (f : File) : Res File :=
  let name := compName 3 comp ri
  (createDataset f name none (firstDims (fieldRank o.dims) o.dims)).bind
    (writeBlocks (order name) name o.dims o.localDims o.start (2 * 3) (fun r a => asReal (field r) (2 * comp + ri + a)) c0)

/-- mpb/fields.c:937-994 `output_scalarfield`. -/
def writeScalarC (order : Name → List (Fin P)) (o : OutP P) (c0 : ℕ → ℝ) (vals : Fin P → ℕ → ℝ) (name : Name) (f : File) : Res File :=
  (createDataset f name none (firstDims (fieldRank o.dims) o.dims)).bind
    (writeBlocks (order name) name o.dims o.localDims o.start 1 vals c0)

/-- mpb/fields.c:1240-1275. -/
def tensorStepsC (order : Name → List (Fin P)) (o : OutP P) (c0 : ℕ → ℝ) : List (File → Res File) :=
  [false, true].flatMap fun inv => (List.range 3).flatMap fun c1 => ((List.range 3).filter (c1 ≤ ·)).flatMap fun c2 =>
    writeScalarC order o c0 (fun r => o.tensor r c1 c2 false inv) (tensorName inv c1 c2) ::
      (if o.hermitian ∧ c1 ≠ c2 then [writeScalarC order o c0 (fun r => o.tensor r c1 c2 true inv) (tensorName inv c1 c2 ++ ".i".toList)] else [])

/-- mpb/fields.c:1280-1291; the attributes are made by all processes together, with the same values. -/
def finishC (o : OutP P) : List (File → Res File) :=
  [fun f => writeDataAttr f .file (some "lattice vectors".toList) (arrR o.outputR) [3, 3],
    fun f => writeStringAttr f .file (some "description".toList) (some o.description)]

/-- mpb/fields.c:1000-1296 `output_field_to_file` with a vector field or a real scalar field present, all processes together; `order` is the order in
which the blocks of each dataset arrive. -/
noncomputable def outputTogether (order : Name → List (Fin P)) (o : OutP P) (which : ℤ) (c0 : ℕ → ℝ) (old : Option File) : Res (Option File) :=
  let k := o.outputK
  if o.type ∈ ['d', 'h', 'b', 'e', 'c', 'v'] then
    let field := fun r => mulPhase o.dims (o.localDims r) (o.start r) k (o.field r)
    (steps (((List.range 3).flatMap fun (comp : ℕ) => if (comp : ℤ) = which ∨ which < 0 then [writeCompC order o c0 field comp 0, writeCompC order o c0 field comp 1] else []) ++
      [fun f => writeDataAttr f .file (some "Bloch wavevector".toList) (arr3 k) [3]] ++ finishC o) (create old)).map some
  else if o.type ∈ ['D', 'H', 'B', 'n', 'm', 'R'] then
    (steps ([writeScalarC order o c0 o.vals "data".toList] ++ (if o.type = 'n' then tensorStepsC order o c0 else []) ++ finishC o) (create old)).map some
  else .ok old

end Mpb.H5

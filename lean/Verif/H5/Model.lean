import Verif.IO.Model
import Verif.Core.Vec
import Mathlib.Data.List.Sort

/-!
# Model of the HDF5 files of MPB: `src/matrixio/matrixio.c` (files, datasets, attributes) and what MPB puts in them

HDF5 itself is external: a file is a finite collection of named objects; `H5Dcreate` and `H5Acreate` fail if the name is taken, `H5Dopen` and
`H5Aopen_name` fail if it is not there, a transfer between character strings and numbers fails, a new dataset is filled with zeros, and
`H5Giterate` visits the objects of a group in increasing order of their names.  Single process (`HAVE_MPI` undefined), HDF5 present.  Strings have
no null characters inside.  Names contain no `/`.  Memory is never exhausted.
-/

namespace Mpb.H5
open Mpb.IO

abbrev Name := List Char

/-- How a call can end other than by returning: a `CHECK` fails and the program stops with a message, or its behaviour is undefined. -/
inductive Fail where
  | stop
  | undef
deriving DecidableEq

abbrev Res := Except Fail

/-- The elements of a dataset or attribute. -/
inductive Content where
  | num (v : Dataset)
  | str (s : List Char)

/-- An array: its sizes (none for a scalar) and its elements. -/
structure Arr where
  dims : List ℕ
  content : Content

/-- An object of a file: a dataset with its attributes or a group with its attributes. -/
inductive Obj where
  | dset (a : Arr) (attrs : List (Name × Arr))
  | group (attrs : List (Name × Arr))

/-- A file. -/
abbrev File := List (Name × Obj)

/-- The entry of a name in a list of named things. -/
def get {α : Type} (f : List (Name × α)) (n : Name) : Option α := (f.find? (fun e => e.1 == n)).map (·.2)

/-- The list without the name. -/
def del {α : Type} (f : List (Name × α)) (n : Name) : List (Name × α) := f.filter (fun e => !(e.1 == n))

/-- The list with a new thing under the name. -/
def put {α : Type} (f : List (Name × α)) (n : Name) (o : α) : List (Name × α) := (n, o) :: del f n

/-- What an identifier refers to: the file or an object in it. -/
inductive Loc where
  | file
  | obj (n : Name)

/-- src/matrixio/matrixio.c:82-109 `write_attr`: on a file a dataset is created, on anything else an attribute; a name that is taken makes the
`CHECK` fail, as does an identifier that is not valid. -/
def writeAttr (f : File) (l : Loc) (name : Name) (a : Arr) : Res File :=
  match l with
  | .file => if (get f name).isSome then .error .stop else .ok (put f name (.dset a []))
  | .obj n =>
    match get f n with
    | none => .error .stop
    | some (.dset b attrs) => if (get attrs name).isSome then .error .stop else .ok (put f n (.dset b (put attrs name a)))
    | some (.group attrs) => if (get attrs name).isSome then .error .stop else .ok (put f n (.group (put attrs name a)))

/-- src/matrixio/matrixio.c:111-135 `open_attr`: `H5Dopen` fails on a group. -/
def openAttr (f : File) (l : Loc) (name : Name) : Option Arr :=
  match l with
  | .file =>
    match get f name with
    | some (.dset a _) => some a
    | _ => none
  | .obj n =>
    match get f n with
    | none => none
    | some (.dset _ attrs) => get attrs name
    | some (.group attrs) => get attrs name

/-- src/matrixio/matrixio.c:164-181 `matrixio_write_string_attr`; `none` is the null pointer. -/
def writeStringAttr (f : File) (l : Loc) (name val : Option (List Char)) : Res File :=
  match name, val with
  | some n, some v => if n = [] ∨ v = [] then .ok f else writeAttr f l n ⟨[], .str v⟩
  | _, _ => .ok f

/-- src/matrixio/matrixio.c:183-217 `matrixio_write_data_attr` of the values `val` (row-major); `rank` is the length of `dims`. -/
def writeDataAttr (f : File) (l : Loc) (name : Option Name) (val : ℕ → ℝ) (dims : List ℕ) : Res File :=
  match name with
  | some n => if n = [] then .ok f else writeAttr f l n ⟨dims, .num fun idx => val (rm dims idx)⟩
  | none => .ok f

/-- src/matrixio/matrixio.c:219-254 `matrixio_read_string_attr`: if there is one element, a buffer is allocated and read; the result of the read is
not checked, so that the buffer of something that is not a string stays uninitialised. -/
def readStringAttr (f : File) (l : Loc) (name : Option Name) : Res (Option (List Char)) :=
  match name with
  | none => .ok none
  | some n =>
    if n = [] then .ok none
    else match openAttr f l n with
      | none => .ok none
      | some a =>
        if a.dims.prod = 1 then
          match a.content with
          | .str s => .ok (some s)
          | .num _ => .error .undef
        else .ok none

/-- src/matrixio/matrixio.c:256-310 `matrixio_read_data_attr`: the new value of `*rank` (if it is written), and the sizes and values if a pointer is
returned.  The result of the read is not checked. -/
def readDataAttr (f : File) (l : Loc) (name : Option Name) (maxRank : ℤ) : Res (Option ℕ × Option (List ℕ × List ℝ)) :=
  match name with
  | none => .ok (none, none)
  | some n =>
    if n = [] ∨ maxRank < 0 then .ok (none, none)
    else match openAttr f l n with
      | none => .ok (none, none)
      | some a =>
        if (a.dims.length : ℤ) ≤ maxRank then
          match a.content with
          | .num v => .ok (some a.dims.length, some (a.dims, (boxIdx a.dims).map v))
          | .str _ => .error .undef
        else .ok (some a.dims.length, none)

/-- src/matrixio/matrixio.c:335-387 `matrixio_create`, when the file can be created: whatever was there is gone. -/
def create (_ : Option File) : File := []

/-- src/matrixio/matrixio.c:598-609 `matrixio_dataset_exists`. -/
def datasetExists (f : File) (name : Name) : Bool :=
  match get f name with
  | some (.dset _ _) => true
  | _ => false

/-- src/matrixio/matrixio.c:611-616 `matrixio_dataset_delete`. -/
def datasetDelete (f : File) (name : Name) : File := del f name

/-- src/matrixio/matrixio.c:446-479 `matrixio_create_sub`.  If the name is taken the identifier is not valid, and writing the description fails;
without a description the invalid identifier is returned (no caller in MPB; simplification: the program stops). -/
def createSub (f : File) (name : Name) (description : Option (List Char)) : Res File :=
  if (get f name).isSome then .error .stop
  else writeStringAttr (put f name (.group [])) (.obj name) (some "description".toList) description

/-- src/matrixio/matrixio.c:536-589 `matrixio_create_dataset`: a dataset of that name is deleted first.  A group of that name is left, `H5Dcreate`
fails, and the first use of the invalid identifier stops the program (`CHK_MALLOC` of a negative number of sizes, matrixio.c:641-645). -/
def createDataset (f : File) (name : Name) (description : Option (List Char)) (dims : List ℕ) : Res File :=
  let f := if datasetExists f name then datasetDelete f name else f
  if dims.length > 0 then
    if (get f name).isSome then .error .stop
    else writeStringAttr (put f name (.dset ⟨dims, .num fun _ => 0⟩ [])) (.obj name) (some "description".toList) description
  else .error .stop

/-- src/matrixio/matrixio.c:490-525 `matrixio_open_dataset`. -/
def openDataset (f : File) (name : Name) (dims : List ℕ) : Res Unit :=
  match get f name with
  | some (.dset a _) => if a.dims = dims then .ok () else .error .stop
  | _ => .error .stop

/-- src/matrixio/matrixio.c:620-743 `matrixio_write_real_data` to the open dataset `name` (`IO.writeReal`).  Writing numbers to a string dataset
fails without notice. -/
def writeData (f : File) (name : Name) (localDims localStart : List ℕ) (stride : ℕ) (data c0 : ℕ → ℝ) : Res File :=
  match get f name with
  | some (.dset ⟨dims, .num v⟩ attrs) =>
    match writeReal localDims localStart stride data c0 v with
    | some v' => .ok (put f name (.dset ⟨dims, .num v'⟩ attrs))
    | none => .error .stop
  | some (.dset ⟨_, .str _⟩ _) => .ok f
  | _ => .error .stop

/-- src/matrixio/matrixio.c:748-760 `find_dataset`, called by `H5Giterate` for the names in increasing order until it returns 1. -/
def findDataset (f : File) : Option Name :=
  ((f.map (·.1)).insertionSort (· ≤ ·)).find? (datasetExists f)

/-- src/matrixio/matrixio.c:783-927 `matrixio_read_real_data` with null `data`: `*rank` and `dims` afterwards and the values; `ok none` is the null
pointer.  Without a name `H5Giterate` returns 0, not a negative number, if no dataset is found, and `dname` is used uninitialised. -/
def readRealData (f : File) (name : Option Name) (maxRank : ℕ) : Res (Option (List ℕ × List ℝ)) :=
  if maxRank > 0 then
    match name.or (findDataset f) with
    | none => .error .undef
    | some n =>
      match get f n with
      | some (.dset a _) =>
        if a.dims.length ≤ maxRank then
          match a.content with
          | .num v => .ok (some (a.dims, (boxIdx a.dims).map v))
          | .str _ => .error .stop
        else .error .stop
      | _ => .ok none
  else .error .stop

/-! ## What MPB reads -/

/-- The dielectric data of a file: sizes and values. -/
structure EpsData where
  nx : ℕ
  ny : ℕ
  nz : ℕ
  data : List ℝ

/-- mpb/epsilon_file.c:131-168 `get_epsilon_file_func`, with the name of an existing file. -/
def epsilonFile (f : File) : Res EpsData :=
  (readRealData f none 3).bind fun r =>
    match r with
    | none => .error .stop
    | some (dims, data) =>
      .ok ⟨if dims.length ≥ 1 then dims.getD 0 1 else 1, if dims.length ≥ 2 then dims.getD 1 1 else 1, if dims.length ≥ 3 then dims.getD 2 1 else 1, data⟩

/-! ## What MPB writes -/

/-- The current field and the rest of the state used by `output_field_to_file`; the tensors are those `get_epsilon_tensor` puts in the current
field (mpb/fields.c:604-678).  `hermitian`: `WITH_HERMITIAN_EPSILON`. -/
structure Out where
  type : Char
  n : ℕ × ℕ × ℕ
  R : M3 ℝ
  currentK : V3 ℝ
  field : ℕ → ℂ
  vals : ℕ → ℝ
  tensor : ℕ → ℕ → Bool → Bool → ℕ → ℝ
  hermitian : Bool
  description : List Char

/-- mpb/fields.c:1086-1098: the wavevector written, in the reciprocal basis. -/
def outputK (o : Out) : ℝ × ℝ × ℝ :=
  if o.type ∈ ['R', 'v'] then (0, 0, 0) else (V3.dot o.R.c0 o.currentK, V3.dot o.R.c1 o.currentK, V3.dot o.R.c2 o.currentK)

/-- The three numbers as an array. -/
def arr3 (k : ℝ × ℝ × ℝ) : ℕ → ℝ
  | 0 => k.1
  | 1 => k.2.1
  | _ => k.2.2

/-- mpb/fields.c:1092-1094 `output_R`, row-major. -/
def arrR (R : M3 ℝ) : ℕ → ℝ
  | 0 => R.c0.x
  | 1 => R.c0.y
  | 2 => R.c0.z
  | 3 => R.c1.x
  | 4 => R.c1.y
  | 5 => R.c1.z
  | 6 => R.c2.x
  | 7 => R.c2.y
  | _ => R.c2.z

/-- src/matrixio/fieldio.c:114-116: the name of the dataset of a component, real or imaginary part. -/
def compName (numComponents comp ri : ℕ) : Name :=
  [Char.ofNat ((if numComponents = 1 then 'c' else 'x').toNat + comp), '.', if ri = 1 then 'i' else 'r']

/-- Steps in turn. -/
def steps (l : List (File → Res File)) (f : File) : Res File := l.foldl (fun r s => r.bind s) (.ok f)

/-- src/matrixio/fieldio.c:108-127, without `append`: create the dataset and write it. -/
def writeComp (n : ℕ × ℕ × ℕ) (c0 : ℕ → ℝ) (numComponents : ℕ) (field : ℕ → ℂ) (comp ri : ℕ) (f : File) : Res File :=
  let name := compName numComponents comp ri
  (createDataset f name none (firstDims (fieldRank n) n)).bind fun f =>
    writeData f name (firstDims (fieldRank n) n) (firstDims (fieldRank n) (0, 0, 0)) (2 * numComponents) (fun a => asReal field (2 * comp + ri + a)) c0

/-- src/matrixio/fieldio.c:33-130 `fieldio_write_complex_field` of the whole grid. -/
noncomputable def writeComplex (n : ℕ × ℕ × ℕ) (c0 : ℕ → ℝ) (which : ℤ) (numComponents : ℕ) (k : ℝ × ℝ × ℝ) (field : ℕ → ℂ) (f : File) : Res File :=
  let field := mulPhase n n (0, 0, 0) k field
  steps ((List.range numComponents).flatMap fun (comp : ℕ) =>
    if (comp : ℤ) = which ∨ which < 0 then [writeComp n c0 numComponents field comp 0, writeComp n c0 numComponents field comp 1] else []) f

/-- mpb/fields.c:937-994 `output_scalarfield` and src/matrixio/fieldio.c:132-150, complex scalars: the dataset is created and written. -/
def writeScalar (n : ℕ × ℕ × ℕ) (c0 vals : ℕ → ℝ) (name : Name) (f : File) : Res File :=
  (createDataset f name none (firstDims (fieldRank n) n)).bind fun f =>
    writeData f name (firstDims (fieldRank n) n) (firstDims (fieldRank n) (0, 0, 0)) 1 vals c0

/-- mpb/fields.c:1248-1250: the name of the dataset of a tensor component. -/
def tensorName (inv : Bool) (c1 c2 : ℕ) : Name :=
  (if inv then "epsilon_inverse".toList else "epsilon".toList) ++ ['.', Char.ofNat (c1 + 'x'.toNat), Char.ofNat (c2 + 'x'.toNat)]

/-- mpb/fields.c:1240-1275: the tensor components, upper triangle, and with Hermitian tensors their imaginary parts off the diagonal. -/
def tensorSteps (o : Out) (c0 : ℕ → ℝ) : List (File → Res File) :=
  [false, true].flatMap fun inv => (List.range 3).flatMap fun c1 => ((List.range 3).filter (c1 ≤ ·)).flatMap fun c2 =>
    writeScalar o.n c0 (o.tensor c1 c2 false inv) (tensorName inv c1 c2) ::
      (if o.hermitian ∧ c1 ≠ c2 then [writeScalar o.n c0 (o.tensor c1 c2 true inv) (tensorName inv c1 c2 ++ ".i".toList)] else [])

/-- mpb/fields.c:1280-1291: what every file gets at the end. -/
def finish (o : Out) (f : File) : Res File :=
  steps [fun f => writeDataAttr f .file (some "lattice vectors".toList) (arrR o.R) [3, 3],
    fun f => writeStringAttr f .file (some "description".toList) (some o.description)] f

/-- mpb/fields.c:1000-1296 `output_field_to_file` with a field present, complex scalars, one process: the file written; `ok none` if no file is
written.  `old` is what the file contained before.  The description is a parameter. -/
noncomputable def outputField (o : Out) (which : ℤ) (c0 : ℕ → ℝ) (old : Option File) : Res (Option File) :=
  let k := outputK o
  if o.type ∈ ['d', 'h', 'b', 'e', 'c', 'v'] then
    (steps [writeComplex o.n c0 which 3 k o.field,
      fun f => writeDataAttr f .file (some "Bloch wavevector".toList) (arr3 k) [3], finish o] (create old)).map some
  else if o.type ∈ ['C'] then
    (steps [writeComplex o.n c0 which 1 k o.field,
      fun f => writeDataAttr f .file (some "Bloch wavevector".toList) (arr3 k) [3], finish o] (create old)).map some
  else if o.type ∈ ['D', 'H', 'B', 'n', 'm', 'R'] then
    (steps (writeScalar o.n c0 o.vals "data".toList :: (if o.type = 'n' then tensorSteps o c0 else []) ++ [finish o]) (create old)).map some
  else .ok none

end Mpb.H5

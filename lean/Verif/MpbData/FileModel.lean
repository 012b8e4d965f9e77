import Verif.MpbData.Model
import Mathlib.Algebra.BigOperators.Group.List.Basic

/-!
# Model of `mpb-data` on whole files (`utils/mpb-data.c:255-723`)

An HDF5 file is a function from dataset names to datasets; `matrixio` stores what it calls attributes of a file as ordinary
datasets (`src/matrixio/matrixio.c:80-85`).  A dataset is its list of sizes and its values in row-major order.  HDF5 itself
is assumed to store what it is given (the hyperslab selections are treated in `Verif.IO`).  Arithmetic is exact; an `int`
never overflows; memory is never exhausted.  The result `none` stands for `CHECK` failing (the program stops) or a division
by zero.
-/

namespace Mpb.MpbData

/-- A dataset of a file: its sizes and its values. -/
structure DSet where
  dims : List ℕ
  data : List ℝ

/-- The datasets of a file. -/
abbrev H5 := List Char → Option DSet

/-- The options of the program (utils/mpb-data.c:778-880), and whether the output goes to the input file (`out_fname` is
null). -/
structure Opts where
  same : Bool
  dataName : Option (List Char)
  rect : Bool
  ve : Option (V3 ℝ)
  resolution : ℝ
  scaleby : ℂ
  mult : V3 ℝ
  nearest : Bool
  transpose : Bool

/-- The two files and the phase cache (the static variables of utils/mpb-data.c:62-84). -/
structure FSt where
  inF : H5
  outF : H5
  cache : Cache

/-- What `handle_file` passes on: the output lattice, the coordinate map, the vector map and the wave vector. -/
structure Geo where
  rout : M3 ℝ
  map : M3 ℝ
  cart : M3 ℝ
  k : Option (V3 ℝ)

/-- src/matrixio/matrixio.c:783-900 `matrixio_read_real_data` with a null `data`, for the callers here, who pass `*rank = 3`
and `dims = {1,1,1}`: a null pointer if there is no such dataset, a failing `CHECK` if its rank is too large; otherwise its
rank, its sizes (the remaining elements of `dims` stay 1) and its values. -/
def readData (f : H5) (name : List Char) : Option (Option (ℕ × (ℕ × ℕ × ℕ) × List ℝ)) :=
  match f name with
  | none => some none
  | some d =>
    if d.dims.length ≤ 3 then some (some (d.dims.length, (d.dims.getD 0 1, d.dims.getD 1 1, d.dims.getD 2 1), d.data))
    else none

/-- utils/mpb-data.c:299-312, 435-448: the number of output points in the direction `i` of the output lattice vector `c`. -/
noncomputable def outDim (o : Opts) (rank i : ℕ) (c : V3 ℝ) (n : ℕ) (m : ℝ) : ℕ :=
  if rank ≤ i then 1
  else max (if 0 < o.resolution then trunc (norm c * o.resolution + 1 / 2) else trunc (n * m)).toNat 1

/-- utils/mpb-data.c:299-312, 435-448: `out_dims`. -/
noncomputable def outDims (o : Opts) (g : Geo) (rank : ℕ) (n : ℕ × ℕ × ℕ) : ℕ × ℕ × ℕ :=
  (outDim o rank 0 g.rout.c0 n.1 o.mult.x, outDim o rank 1 g.rout.c1 n.2.1 o.mult.y, outDim o rank 2 g.rout.c2 n.2.2 o.mult.z)

/-- utils/mpb-data.c:314-323, 450-459: `out_dims2`. -/
def outDims2 (o : Opts) (m : ℕ × ℕ × ℕ) : List ℕ := if o.transpose then [m.2.1, m.1, m.2.2] else [m.1, m.2.1, m.2.2]

/-- The arguments of `map_data`. -/
def mapParams (o : Opts) (g : Geo) (n m : ℕ × ℕ × ℕ) : Params :=
  ⟨n.1, n.2.1, n.2.2, m.1, m.2.1, m.2.2, g.map, g.k, o.nearest, o.transpose⟩

/-- src/matrixio/matrixio.c:536-616 `matrixio_create_dataset` (an existing dataset of that name is deleted first) followed by
`matrixio_write_real_data` of a contiguous array: the first `rank` sizes count; the rank must be positive. -/
def newData (rank : ℕ) (dims2 : List ℕ) (out : ℕ → ℝ) : Option DSet :=
  if rank = 0 then none else some ⟨dims2.take rank, (List.range (dims2.take rank).prod).map out⟩

/-- The name of an output dataset (utils/mpb-data.c:345-347, 357-359, 483-485). -/
def outName (o : Opts) (name : List Char) : List Char := if o.same then name ++ "-new".toList else name

/-- Store a dataset in the output file. -/
def put (o : Opts) (s : FSt) (name : List Char) (d : DSet) : FSt :=
  if o.same then { s with inF := Function.update s.inF name (some d) }
  else { s with outF := Function.update s.outF name (some d) }

/-- Combine a real and an imaginary part. -/
def toC (re im : List ℝ) : List ℂ := List.zipWith (fun a b => (⟨a, b⟩ : ℂ)) re im

/-- utils/mpb-data.c:255-370 `handle_dataset` with a null `name_im`.  `junk` is what freshly allocated memory contains. -/
noncomputable def handleReal (o : Opts) (g : Geo) (junk : ℕ → ℝ) (name : List Char) (s : FSt) : Option FSt :=
  (readData s.inF name).bind fun r =>
    match r with
    | none => some s
    | some (rank, n, din) =>
      let m := outDims o g rank n
      (mapDataR (mapParams o g n m) din junk).bind fun out =>
        (newData rank (outDims2 o m) out).map fun d => put o s (outName o name) d

/-- utils/mpb-data.c:255-370 `handle_dataset` with both names: nothing happens unless both datasets are there; the sizes
must agree; the rank is that of the imaginary part, read last. -/
noncomputable def handlePair (o : Opts) (g : Geo) (junk : ℕ → ℝ) (nameRe nameIm : List Char) (s : FSt) : Option FSt :=
  (readData s.inF nameRe).bind fun r =>
    match r with
    | none => some s
    | some (rank0, n, re) =>
      (readData' rank0 s.inF nameIm).bind fun r' =>
        match r' with
        | none => some s
        | some (rank, n', im) =>
          if n' = n then
            let m := outDims o g rank n
            (mapDataC (mapParams o g n m) (toC re im) (fun a => ⟨junk a, junk a⟩) s.cache).bind fun res =>
              let out := fun a => o.scaleby * res.1 a
              (newData rank (outDims2 o m) (fun a => (out a).re)).bind fun dr =>
                let s1 := put o { s with cache := res.2 } (outName o nameRe) dr
                (newData rank (outDims2 o m) (fun a => (out a).im)).map fun di => put o s1 (outName o nameIm) di
          else none
where
  /-- Reading the imaginary part: `*rank` is now the rank of the real part, which is the largest rank allowed. -/
  readData' (rank0 : ℕ) (f : H5) (name : List Char) : Option (Option (ℕ × (ℕ × ℕ × ℕ) × List ℝ)) :=
    match f name with
    | none => if rank0 = 0 then none else some none
    | some d => if rank0 = 0 ∨ rank0 < d.dims.length then none else readData f name

/-- The name `x.r` and so on (utils/mpb-data.c:393-396). -/
def compName (c p : Char) : List Char := [c, '.', p]

/-- The six datasets of a complex vector field, in the order in which they are read (utils/mpb-data.c:389-390). -/
def vecNames : List (List Char) :=
  [compName 'x' 'r', compName 'x' 'i', compName 'y' 'r', compName 'y' 'i', compName 'z' 'r', compName 'z' 'i']

/-- utils/mpb-data.c:391-409: read one of the six datasets.  The accumulator is the rank and sizes of the first and what
has been read; an inner `none` is the jump to `bad`, because one is missing or has another rank or size than the first. -/
def sixStep (f : H5) (acc : Option (ℕ × (ℕ × ℕ × ℕ) × List (List ℝ))) (name : List Char) :
    Option (Option (ℕ × (ℕ × ℕ × ℕ) × List (List ℝ))) :=
  match acc with
  | none => some none
  | some (rank, n, l) =>
    (readData f name).map fun r =>
      match r with
      | none => none
      | some (rnk, dims, d) =>
        if l = [] then some (rnk, dims, [d])
        else if rank = rnk ∧ n = dims then some (rank, n, l ++ [d]) else none

/-- utils/mpb-data.c:389-410: read the six datasets. -/
def readSix (f : H5) : Option (Option (ℕ × (ℕ × ℕ × ℕ) × List (List ℝ))) :=
  vecNames.foldlM (sixStep f) (some (3, (1, 1, 1), []))

/-- utils/mpb-data.c:419-432: apply the vector map to the vector field whose components are `x`, `y`, `z`. -/
def rotate (cart : M3 ℝ) (N : ℕ) (x y z : List ℝ) : List ℝ × List ℝ × List ℝ :=
  let v := fun i => cart.mulVec ⟨x.getD i 0, y.getD i 0, z.getD i 0⟩
  ((List.range N).map fun i => (v i).x, (List.range N).map fun i => (v i).y, (List.range N).map fun i => (v i).z)

/-- utils/mpb-data.c:465-500: one component of a vector field. -/
noncomputable def handleComp (o : Opts) (g : Geo) (junk : ℕ → ℝ) (rank : ℕ) (n : ℕ × ℕ × ℕ) (s : FSt)
    (c : Char × List ℝ × List ℝ) : Option FSt :=
  let m := outDims o g rank n
  (mapDataC (mapParams o g n m) (toC c.2.1 c.2.2) (fun a => ⟨junk a, junk a⟩) s.cache).bind fun res =>
    let out := fun a => o.scaleby * res.1 a
    (newData rank (outDims2 o m) (fun a => (out a).re)).bind fun dr =>
      let s1 := put o { s with cache := res.2 } (outName o (compName c.1 'r')) dr
      (newData rank (outDims2 o m) (fun a => (out a).im)).map fun di => put o s1 (outName o (compName c.1 'i')) di

/-- utils/mpb-data.c:372-532 `handle_cvector_dataset`. -/
noncomputable def handleVec (o : Opts) (g : Geo) (junk : ℕ → ℝ) (s : FSt) : Option FSt :=
  (readSix s.inF).bind fun r =>
    match r with
    | some (rank, n, [xr, xi, yr, yi, zr, zi]) =>
      let N := n.1 * n.2.1 * n.2.2
      let re := rotate g.cart N xr yr zr
      let im := rotate g.cart N xi yi zi
      [('x', re.1, im.1), ('y', re.2.1, im.2.1), ('z', re.2.2, im.2.2)].foldlM (handleComp o g junk rank n) s
    | _ =>
      ['x', 'y', 'z'].foldlM (fun s c =>
        (handlePair o g junk (compName c 'r') (compName c 'i') s).bind (handleReal o g junk [c])) s

/-- utils/mpb-data.c:545-560: the names tried by default. -/
def dataNames : List (List Char) :=
  ["data".toList, "epsilon.xx".toList, "epsilon.xy".toList, "epsilon.xz".toList, "epsilon.yy".toList, "epsilon.yz".toList,
   "epsilon.zz".toList, "epsilon_inverse.xx".toList, "epsilon_inverse.xy".toList, "epsilon_inverse.xz".toList,
   "epsilon_inverse.yy".toList, "epsilon_inverse.yz".toList, "epsilon_inverse.zz".toList]

/-- utils/mpb-data.c:567-568, 688-710: the names tried; an empty name counts as none. -/
def names (o : Opts) : List (List Char) :=
  match o.dataName with
  | some (c :: l) => [c :: l]
  | _ => dataNames

/-- utils/mpb-data.c:570-581: the lattice vectors of the file, or the unit vectors. -/
noncomputable def latticeVectors (f : H5) : M3 ℝ :=
  match f "lattice vectors".toList with
  | some ⟨[3, 3], [a, b, c, d, e, f, g, h, i]⟩ => ⟨⟨a, b, c⟩, ⟨d, e, f⟩, ⟨g, h, i⟩⟩
  | _ => ⟨⟨1, 0, 0⟩, ⟨0, 1, 0⟩, ⟨0, 0, 1⟩⟩

/-- A vector stored in the file (src/matrixio/matrixio.c:231-281 `matrixio_read_data_attr`, utils/mpb-data.c:583-595): null
unless it has three elements.  (If there is no such attribute, `rank` and `dims` keep what they were, possibly
uninitialised; but the pointer is null in either case.  The message printed with `-v` is not modelled.) -/
def vectorAttr (f : H5) (name : String) : Option (V3 ℝ) :=
  match f name.toList with
  | some ⟨[3], [a, b, c]⟩ => some ⟨a, b, c⟩
  | _ => none

/-- utils/mpb-data.c:570-608: the input lattice and wave vector: those stored, times the number of copies. -/
noncomputable def inLattice (f : H5) : M3 ℝ × Option (V3 ℝ) :=
  let R := latticeVectors f
  let k := vectorAttr f "Bloch wavevector"
  match vectorAttr f "lattice copies" with
  | some q => (⟨V3.smul q.x R.c0, V3.smul q.y R.c1, V3.smul q.z R.c2⟩, k.map fun k => ⟨k.x * q.x, k.y * q.y, k.z * q.z⟩)
  | none => (R, k)

/-- utils/mpb-data.c:655-663: `-T` swaps the first two rows of the vector map. -/
def swapRows (m : M3 ℝ) : M3 ℝ :=
  let t := M3.transpose m
  M3.transpose ⟨t.c1, t.c0, t.c2⟩

/-- utils/mpb-data.c:616-676: the geometry. -/
noncomputable def geometry (o : Opts) (f : H5) : Option Geo :=
  let Rin := (inLattice f).1
  (if o.rect then rectify Rin o.ve else some Rin).map fun R =>
    let cart := if o.rect then cartMap R else ⟨⟨1, 0, 0⟩, ⟨0, 1, 0⟩, ⟨0, 0, 1⟩⟩
    let cart := if o.transpose then swapRows cart else cart
    let Rout := multiply o.mult R
    ⟨Rout, coordMap Rin Rout, cart, (inLattice f).2⟩

/-- utils/mpb-data.c:534-723 `handle_file`: the output file starts empty (`matrixio_create` truncates it). -/
noncomputable def handleFile (o : Opts) (junk : ℕ → ℝ) (f : H5) (c : Cache) : Option FSt :=
  (geometry o f).bind fun g =>
    ((names o).foldlM (fun s n =>
      (handleReal o g junk n s).bind (handlePair o g junk (n ++ ".r".toList) (n ++ ".i".toList)))
      ⟨f, fun _ => none, c⟩).bind (handleVec o g junk)

end Mpb.MpbData

import Verif.MpbData.FileModel
import Verif.MpbData.Props

/-!
# What `mpb-data` should write (specification of C91)
-/

namespace Mpb.MpbData.Spec

/-- The numbers stored under a name, if it is stored with the given sizes. -/
def stored (f : H5) (name : String) (dims : List ℕ) : Option (ℕ → ℝ) :=
  match f name.toList with
  | some d => if d.dims = dims ∧ d.data.length = dims.prod then some fun i => d.data.getD i 0 else none
  | none => none

/-- The lattice vectors stored, one after the other; unit vectors if none are. -/
def vectors (f : H5) : M3 ℝ :=
  match stored f "lattice vectors" [3, 3] with
  | some x => ⟨⟨x 0, x 1, x 2⟩, ⟨x 3, x 4, x 5⟩, ⟨x 6, x 7, x 8⟩⟩
  | none => ⟨⟨1, 0, 0⟩, ⟨0, 1, 0⟩, ⟨0, 0, 1⟩⟩

/-- A vector stored under a name. -/
def triple (f : H5) (name : String) : Option (V3 ℝ) := (stored f name [3]).map fun x => ⟨x 0, x 1, x 2⟩

/-- The names of the fields to transform: the one named with `-d` or in the argument, or those of the scalar fields and
tensors MPB writes. -/
def wanted (o : Opts) : List (List Char) :=
  match o.dataName with
  | some (c :: l) => [c :: l]
  | _ => "data".toList :: ["epsilon", "epsilon_inverse"].flatMap fun t =>
      ["xx", "xy", "xz", "yy", "yz", "zz"].map fun c => t.toList ++ '.' :: c.toList

/-- The lattice described by the file: the stored lattice vectors, each times the number of copies stored along it. -/
noncomputable def lattice (f : H5) : M3 ℝ :=
  let R := vectors f
  let q := (triple f "lattice copies").getD ⟨1, 1, 1⟩
  ⟨V3.smul q.x R.c0, V3.smul q.y R.c1, V3.smul q.z R.c2⟩

/-- The Bloch wave vector of the file in the basis reciprocal to `lattice` (zero if none is stored). -/
noncomputable def wave (f : H5) : V3 ℝ :=
  let k := (triple f "Bloch wavevector").getD ⟨0, 0, 0⟩
  let q := (triple f "lattice copies").getD ⟨1, 1, 1⟩
  ⟨k.x * q.x, k.y * q.y, k.z * q.z⟩

/-- `R` is the lattice before multiplying the periods: the file's, or a rectangular one made from it. -/
def IsCell (o : Opts) (f : H5) (R : M3 ℝ) : Prop := if o.rect then rectify (lattice f) o.ve = some R else R = lattice f

/-- The sizes of an array in three dimensions: missing ones are 1. -/
def sizes (dims : List ℕ) : ℕ × ℕ × ℕ := (dims.getD 0 1, dims.getD 1 1, dims.getD 2 1)

/-- The number of output points in one direction: `-n` points per unit length along the output lattice vector (rounded to
nearest), or the given multiple of the number of input points (rounded down); at least one.  Directions the array does not
have get one. -/
noncomputable def points (o : Opts) (has : Prop) [Decidable has] (c : V3 ℝ) (n : ℕ) (mult : ℝ) : ℕ :=
  if has then max 1 (if 0 < o.resolution then ⌊norm c * o.resolution + 1 / 2⌋₊ else ⌊n * mult⌋₊) else 1

/-- The output grid. -/
noncomputable def grid (o : Opts) (R : M3 ℝ) (dims : List ℕ) : ℕ × ℕ × ℕ :=
  (points o (0 < dims.length) (V3.smul o.mult.x R.c0) (sizes dims).1 o.mult.x,
   points o (1 < dims.length) (V3.smul o.mult.y R.c1) (sizes dims).2.1 o.mult.y,
   points o (2 < dims.length) (V3.smul o.mult.z R.c2) (sizes dims).2.2 o.mult.z)

/-- The position, in lattice coordinates of the input cell, of an output point. -/
noncomputable def place (o : Opts) (f : H5) (R : M3 ℝ) (dims : List ℕ) (i j k : ℕ) : V3 ℝ :=
  position (coordMap (lattice f) (multiply o.mult R)) (grid o R dims).1 (grid o R dims).2.1 (grid o R dims).2.2 i j k

/-- A real field at an output point: the interpolated periodic extension of the data. -/
noncomputable def realAt (o : Opts) (f : H5) (R : M3 ℝ) (a : DSet) (i j k : ℕ) : ℝ :=
  sample o.nearest (sizes a.dims).1 (sizes a.dims).2.1 (sizes a.dims).2.2
    (periodic a.data (sizes a.dims).1 (sizes a.dims).2.1 (sizes a.dims).2.2) (place o f R a.dims i j k)

/-- A complex field at an output point: the interpolated Bloch extension, times the phase asked for with `-P`. -/
noncomputable def cplxAt (o : Opts) (f : H5) (R : M3 ℝ) (a b : DSet) (i j k : ℕ) : ℂ :=
  o.scaleby * sample o.nearest (sizes a.dims).1 (sizes a.dims).2.1 (sizes a.dims).2.2
    (bloch (List.zipWith (fun x y => (⟨x, y⟩ : ℂ)) a.data b.data) (sizes a.dims).1 (sizes a.dims).2.1 (sizes a.dims).2.2
      (wave f)) (place o f R a.dims i j k)

/-- The axes along which the components of a vector are given in the output: the Cartesian axes, or the unit vectors along
the edges of the rectangular cell; `-T` exchanges the first two. -/
noncomputable def axes (o : Opts) (R : M3 ℝ) (c : Fin 3) : V3 ℝ :=
  let e : Fin 3 → V3 ℝ := if o.rect then ![unit R.c0, unit R.c1, unit R.c2] else ![⟨1, 0, 0⟩, ⟨0, 1, 0⟩, ⟨0, 0, 1⟩]
  if o.transpose then e (Equiv.swap 0 1 c) else e c

/-- The letters of the components. -/
def letter : Fin 3 → Char := ![ 'x', 'y', 'z' ]

/-- The file has a complete complex vector field: all six datasets with the same sizes. -/
def HasVec (f : H5) : Prop :=
  ∃ dims, ∀ c : Fin 3, ∀ p ∈ ['r', 'i'], ∃ a, f [letter c, '.', p] = some a ∧ a.dims = dims

/-- A field to be transformed: the real dataset `n`, the complex one `n.r`, `n.i`, or the complex vector field
`x.r`, …, `z.i`. -/
inductive Job
  | real (n : List Char)
  | pair (n : List Char)
  | vec

/-- `Gives o f R j t dims F`: the field `j` is in the file, one of its datasets is `t`, its array has the sizes `dims`, and
`F i j k` is the value of that dataset at the output point `(i,j,k)`. -/
def Gives (o : Opts) (f : H5) (R : M3 ℝ) : Job → List Char → List ℕ → (ℕ → ℕ → ℕ → ℝ) → Prop
  | .real n, t, dims, F => ∃ a, f n = some a ∧ t = n ∧ dims = a.dims ∧ F = realAt o f R a
  | .pair n, t, dims, F => ∃ a b, f (n ++ ".r".toList) = some a ∧ f (n ++ ".i".toList) = some b ∧ dims = a.dims ∧
      ((t = n ++ ".r".toList ∧ F = fun i j k => (cplxAt o f R a b i j k).re) ∨
       (t = n ++ ".i".toList ∧ F = fun i j k => (cplxAt o f R a b i j k).im))
  | .vec, t, dims, F => ∃ a b : Fin 3 → DSet, (∀ c, f [letter c, '.', 'r'] = some (a c) ∧ (a c).dims = dims) ∧
      (∀ c, f [letter c, '.', 'i'] = some (b c) ∧ (b c).dims = dims) ∧ ∃ c,
      ((t = [letter c, '.', 'r'] ∧ F = fun i j k => (axes o R c).x * (cplxAt o f R (a 0) (b 0) i j k).re +
        (axes o R c).y * (cplxAt o f R (a 1) (b 1) i j k).re + (axes o R c).z * (cplxAt o f R (a 2) (b 2) i j k).re) ∨
       (t = [letter c, '.', 'i'] ∧ F = fun i j k => (axes o R c).x * (cplxAt o f R (a 0) (b 0) i j k).im +
        (axes o R c).y * (cplxAt o f R (a 1) (b 1) i j k).im + (axes o R c).z * (cplxAt o f R (a 2) (b 2) i j k).im))

open Classical in
/-- The fields that are transformed, in this order: the named one, or those MPB writes; then the vector field or, if it is
not complete, its components as separate scalar fields. -/
noncomputable def jobs (o : Opts) (f : H5) : List Job :=
  (wanted o).flatMap (fun n => [.real n, .pair n]) ++
    if HasVec f then [.vec]
    else [.pair ['x'], .real ['x'], .pair ['y'], .real ['y'], .pair ['z'], .real ['z']]

/-- The last of the fields with a dataset `t` determines it. -/
def Last (o : Opts) (f : H5) (R : M3 ℝ) (js : List Job) (t : List Char) (dims : List ℕ) (F : ℕ → ℕ → ℕ → ℝ) : Prop :=
  ∃ pre j post, js = pre ++ j :: post ∧ Gives o f R j t dims F ∧ ∀ j' ∈ post, ∀ dims' F', ¬ Gives o f R j' t dims' F'

/-- The dataset `D` holds the values `F` on the output grid of an array with sizes `dims`: as many dimensions as the input,
row-major, the first two exchanged with `-T`. -/
def Shows (o : Opts) (R : M3 ℝ) (dims : List ℕ) (F : ℕ → ℕ → ℕ → ℝ) (D : DSet) : Prop :=
  let m := grid o R dims
  D.dims = (if o.transpose then [m.2.1, m.1, m.2.2] else [m.1, m.2.1, m.2.2]).take dims.length ∧
  D.data.length = m.1 * m.2.1 * m.2.2 ∧
  ∀ i j k, i < m.1 → j < m.2.1 → k < m.2.2 →
    D.data[if o.transpose then (j * m.1 + i) * m.2.2 + k else (i * m.2.1 + j) * m.2.2 + k]? = some (F i j k)

/-- A dataset of one to three dimensions, none of size zero, with all its values; two or three dimensions if the first two
are to be exchanged. -/
structure Sound (o : Opts) (a : DSet) : Prop where
  low : 1 ≤ a.dims.length
  high : a.dims.length ≤ 3
  pos : ∀ n ∈ a.dims, 0 < n
  full : a.data.length = a.dims.prod
  two : o.transpose = true → 2 ≤ a.dims.length

/-- The datasets belonging to a field. -/
def reads : Job → List (List Char)
  | .real n => [n]
  | .pair n => [n ++ ".r".toList, n ++ ".i".toList]
  | .vec => [['x', '.', 'r'], ['x', '.', 'i'], ['y', '.', 'r'], ['y', '.', 'i'], ['z', '.', 'r'], ['z', '.', 'i']]

/-- The file can be transformed: the lattice vectors are independent, a direction given with `-e` is usable (see C38), all
datasets involved are sound, and real and imaginary parts have the same sizes. -/
structure Ready (o : Opts) (f : H5) : Prop where
  cell : volume (lattice f) ≠ 0
  dir : ∀ v, o.rect = true → o.ve = some v → v ≠ 0 ∧ rectDen (lattice f) v ≠ 0
  sound : ∀ j ∈ jobs o f, ∀ t ∈ reads j, ∀ a, f t = some a → Sound o a
  same : ∀ n, Job.pair n ∈ jobs o f → ∀ a b, f (n ++ ".r".toList) = some a → f (n ++ ".i".toList) = some b → a.dims = b.dims

end Mpb.MpbData.Spec

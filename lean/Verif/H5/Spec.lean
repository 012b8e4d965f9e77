import Verif.H5.Model
import Verif.IO.Props

/-! # Specification for C108: what an output file contains -/

namespace Mpb.H5.Spec
open Mpb.IO Mpb.H5

/-- What a dataset should hold: values at the points of the grid, a table of numbers in row-major order, or a text. -/
inductive Entry where
  | grid (v : ℕ × ℕ × ℕ → ℝ)
  | table (dims : List ℕ) (vals : List ℝ)
  | text (s : List Char)

/-- The sizes of a dataset for the grid: trailing sizes that are 1 are left out. -/
def gridDims (n : ℕ × ℕ × ℕ) : List ℕ := if n.2.2 = 1 then (if n.2.1 = 1 then [n.1] else [n.1, n.2.1]) else [n.1, n.2.1, n.2.2]

/-- The array holds what it should. -/
def Meets (n : ℕ × ℕ × ℕ) (e : Entry) (a : Arr) : Prop :=
  match e with
  | .grid v => a.dims = gridDims n ∧ ∃ d, a.content = .num d ∧ ∀ t : ℕ × ℕ × ℕ, t.1 < n.1 → t.2.1 < n.2.1 → t.2.2 < n.2.2 → d (gridIdx n t) = v t
  | .table dims vals => a.dims = dims ∧ ∃ d, a.content = .num d ∧ (boxIdx dims).map d = vals
  | .text s => a.dims = [] ∧ a.content = .str s

/-- The file contains exactly the datasets listed. -/
def Exactly (n : ℕ × ℕ × ℕ) (f : File) (es : List (Name × Entry)) : Prop :=
  (∀ m, (get f m).isSome ↔ m ∈ es.map (·.1)) ∧ ∀ e ∈ es, ∃ a attrs, get f e.1 = some (.dset a attrs) ∧ Meets n e.2 a

/-- The wavevector in the reciprocal basis; zero for fields that have none. -/
def wave (o : Out) : ℝ × ℝ × ℝ :=
  if o.type = 'R' ∨ o.type = 'v' then (0, 0, 0)
  else (o.R.c0.x * o.currentK.x + o.R.c0.y * o.currentK.y + o.R.c0.z * o.currentK.z,
    o.R.c1.x * o.currentK.x + o.R.c1.y * o.currentK.y + o.R.c1.z * o.currentK.z,
    o.R.c2.x * o.currentK.x + o.R.c2.y * o.currentK.y + o.R.c2.z * o.currentK.z)

/-- What every file ends with. -/
def common (o : Out) : List (Name × Entry) :=
  [("lattice vectors".toList, .table [3, 3] [o.R.c0.x, o.R.c0.y, o.R.c0.z, o.R.c1.x, o.R.c1.y, o.R.c1.z, o.R.c2.x, o.R.c2.y, o.R.c2.z]),
   ("description".toList, .text o.description)]

/-- Component `c` of the vector field at a grid point, times the Bloch phase there. -/
noncomputable def value (o : Out) (c : ℕ) (t : ℕ × ℕ × ℕ) : ℂ :=
  o.field (((t.1 * o.n.2.1 + t.2.1) * o.n.2.2 + t.2.2) * 3 + c) * IO.Spec.bloch (wave o) o.n t

/-- The file of a vector field: real and imaginary part of the components asked for (all if `which` is negative), the wavevector, and the rest. -/
noncomputable def vectorFile (o : Out) (which : ℤ) : List (Name × Entry) :=
  (if which < 0 ∨ which = 0 then [("x.r".toList, .grid fun t => (value o 0 t).re), ("x.i".toList, .grid fun t => (value o 0 t).im)] else []) ++
  (if which < 0 ∨ which = 1 then [("y.r".toList, .grid fun t => (value o 1 t).re), ("y.i".toList, .grid fun t => (value o 1 t).im)] else []) ++
  (if which < 0 ∨ which = 2 then [("z.r".toList, .grid fun t => (value o 2 t).re), ("z.i".toList, .grid fun t => (value o 2 t).im)] else []) ++
  [("Bloch wavevector".toList, .table [3] [(wave o).1, (wave o).2.1, (wave o).2.2])] ++ common o

/-- A real array in row-major order as values at grid points. -/
def onGrid (o : Out) (v : ℕ → ℝ) : Entry := .grid fun t => v ((t.1 * o.n.2.1 + t.2.1) * o.n.2.2 + t.2.2)

/-- The tensor datasets of an epsilon file. -/
def tensors (o : Out) : List (Name × Entry) :=
  let im (inv : Bool) (c1 c2 : ℕ) (name : String) : List (Name × Entry) := if o.hermitian then [(name.toList, onGrid o (o.tensor c1 c2 true inv))] else []
  [("epsilon.xx".toList, onGrid o (o.tensor 0 0 false false)), ("epsilon.xy".toList, onGrid o (o.tensor 0 1 false false))] ++ im false 0 1 "epsilon.xy.i" ++
  [("epsilon.xz".toList, onGrid o (o.tensor 0 2 false false))] ++ im false 0 2 "epsilon.xz.i" ++
  [("epsilon.yy".toList, onGrid o (o.tensor 1 1 false false)), ("epsilon.yz".toList, onGrid o (o.tensor 1 2 false false))] ++ im false 1 2 "epsilon.yz.i" ++
  [("epsilon.zz".toList, onGrid o (o.tensor 2 2 false false)),
   ("epsilon_inverse.xx".toList, onGrid o (o.tensor 0 0 false true)), ("epsilon_inverse.xy".toList, onGrid o (o.tensor 0 1 false true))] ++
  im true 0 1 "epsilon_inverse.xy.i" ++ [("epsilon_inverse.xz".toList, onGrid o (o.tensor 0 2 false true))] ++ im true 0 2 "epsilon_inverse.xz.i" ++
  [("epsilon_inverse.yy".toList, onGrid o (o.tensor 1 1 false true)), ("epsilon_inverse.yz".toList, onGrid o (o.tensor 1 2 false true))] ++
  im true 1 2 "epsilon_inverse.yz.i" ++ [("epsilon_inverse.zz".toList, onGrid o (o.tensor 2 2 false true))]

/-- The file of a real scalar field. -/
def scalarFile (o : Out) : List (Name × Entry) :=
  [("data".toList, onGrid o o.vals)] ++ (if o.type = 'n' then tensors o else []) ++ common o

end Mpb.H5.Spec

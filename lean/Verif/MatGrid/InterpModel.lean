import Verif.Core.Vec
import Mathlib.Data.Real.Archimedean
import Mathlib.Algebra.Order.Floor.Ring

/-!
# Model of the interpolation in epsilon files and material grids

`linear_interpolate` (mpb/epsilon_file.c:48-96), `epsilon_file_func` (mpb/epsilon_file.c:98-129) and `add_interpolate_weights`
(mpb/material_grid.c:246-311).  Numbers are exact; a conversion to `int` truncates towards zero and does not overflow.  An access
outside an array, or a division by zero, makes the whole call undefined (`none`).
-/

namespace Mpb.MatGrid

/-- The `(int)` conversion. -/
noncomputable def truncZ (a : ℝ) : ℤ := if 0 ≤ a then ⌊a⌋ else ⌈a⌉

/-- "mirror boundary conditions", mpb/epsilon_file.c:58-60 (one coordinate). -/
noncomputable def mirror (r : ℝ) : ℝ := if r < 0 then -r else if r > 1 then 1 - r else r

/-- The two indices and the weight of the second one, for one coordinate. -/
structure Axis where
  x : ℤ
  x2 : ℤ
  d : ℝ

/-- mpb/epsilon_file.c:63 (one coordinate), `r` already mirrored. -/
noncomputable def cell (r : ℝ) (n : ℕ) : ℤ :=
  let x := truncZ (r * n)
  if x = n then x - 1 else x

/-- mpb/epsilon_file.c:74-75 (one coordinate). -/
noncomputable def other (dx : ℝ) (x : ℤ) (n : ℕ) : ℤ :=
  let x2 := if dx ≥ 0 then x + 1 else x - 1
  if x2 < 0 then x2 + 1 else if x2 = n then x2 - 1 else x2

/-- mpb/epsilon_file.c:57-84 (one coordinate). -/
noncomputable def axis (r : ℝ) (n : ℕ) : Axis :=
  let r := mirror r
  let x := cell r n
  let dx := r * n - x - 0.5
  ⟨x, other dx x n, |dx|⟩

/-- `(((x)*ny + (y))*nz + (z)) * stride`, mpb/epsilon_file.c:88. -/
def flat (ny nz stride : ℕ) (x y z : ℤ) : ℤ := ((x * ny + y) * nz + z) * stride

/-- An array: its length and its contents. -/
structure Arr where
  len : ℕ
  get : ℕ → ℝ

/-- Reading an array; `none` is an access outside it. -/
def Arr.read (a : Arr) (i : ℤ) : Option ℝ := if 0 ≤ i ∧ i < a.len then some (a.get i.toNat) else none

/-- Adding to an entry of an array. -/
def Arr.add (a : Arr) (i : ℤ) (w : ℝ) : Option Arr :=
  if 0 ≤ i ∧ i < a.len then some ⟨a.len, Function.update a.get i.toNat (a.get i.toNat + w)⟩ else none

/-- The eight reads and the result, mpb/epsilon_file.c:90-93 (also mpb/material_grid.c:294-297). -/
noncomputable def combine (data : Arr) (ny nz stride : ℕ) (X Y Z : Axis) : Option ℝ := do
  let D := fun x y z => data.read (flat ny nz stride x y z)
  let a ← D X.x Y.x Z.x
  let b ← D X.x2 Y.x Z.x
  let c ← D X.x Y.x2 Z.x
  let d ← D X.x2 Y.x2 Z.x
  let e ← D X.x Y.x Z.x2
  let f ← D X.x2 Y.x Z.x2
  let g ← D X.x Y.x2 Z.x2
  let h ← D X.x2 Y.x2 Z.x2
  return ((a * (1 - X.d) + b * X.d) * (1 - Y.d) + (c * (1 - X.d) + d * X.d) * Y.d) * (1 - Z.d) +
    ((e * (1 - X.d) + f * X.d) * (1 - Y.d) + (g * (1 - X.d) + h * X.d) * Y.d) * Z.d

/-- `linear_interpolate`, mpb/epsilon_file.c:51-96. -/
noncomputable def linearInterpolate (r : V3 ℝ) (data : Arr) (nx ny nz stride : ℕ) : Option ℝ :=
  combine data ny nz stride (axis r.x nx) (axis r.y ny) (axis r.z nz)

/-- One coordinate of mpb/epsilon_file.c:106-113. -/
noncomputable def wrap (r : ℝ) : ℝ :=
  let r := if r ≥ 0 then r else r + (1 + truncZ (-r))
  if r < 1 then r else r - truncZ r

/-- `epsilon_file_func`, mpb/epsilon_file.c:98-129: the scalar `eps_val` and its inverse, put on the diagonals (the off-diagonal
elements are set to 0). -/
noncomputable def epsilonFileFunc (r : V3 ℝ) (data : Arr) (nx ny nz : ℕ) : Option (ℝ × ℝ) :=
  (linearInterpolate ⟨wrap r.x, wrap r.y, wrap r.z⟩ data nx ny nz 1).map fun e => (e, 1 / e)

/-- The kinds of material grids, mpb/mpb.h (`material_grid_kinds`). -/
inductive Kind
  | uMin
  | uProd
  | uSum
  deriving DecidableEq

/-- What happens at mpb/material_grid.c:299-300: return without adding anything, add with the scale `s`, or, for `uval / u` with
`u = 0`, add numbers that are infinite or not a number. -/
inductive Scale
  | skip
  | nan
  | scale (s : ℝ)

/-- mpb/material_grid.c:299-300. -/
noncomputable def scaleFor (kind : Kind) (u uval scaleby : ℝ) : Scale :=
  match kind with
  | .uMin => if u ≠ uval then .skip else .scale scaleby
  | .uProd => if u = 0 then .nan else .scale (scaleby * (uval / u))
  | .uSum => .scale scaleby

/-- The eight updates, mpb/material_grid.c:302-309. -/
noncomputable def scatter (data : Arr) (ny nz stride : ℕ) (X Y Z : Axis) (s : ℝ) : Option Arr := do
  let D := fun (a : Arr) x y z w => a.add (flat ny nz stride x y z) w
  let data ← D data X.x Y.x Z.x ((1 - X.d) * (1 - Y.d) * (1 - Z.d) * s)
  let data ← D data X.x2 Y.x Z.x (X.d * (1 - Y.d) * (1 - Z.d) * s)
  let data ← D data X.x Y.x2 Z.x ((1 - X.d) * Y.d * (1 - Z.d) * s)
  let data ← D data X.x2 Y.x2 Z.x (X.d * Y.d * (1 - Z.d) * s)
  let data ← D data X.x Y.x Z.x2 ((1 - X.d) * (1 - Y.d) * Z.d * s)
  let data ← D data X.x2 Y.x Z.x2 (X.d * (1 - Y.d) * Z.d * s)
  let data ← D data X.x Y.x2 Z.x2 ((1 - X.d) * Y.d * Z.d * s)
  D data X.x2 Y.x2 Z.x2 (X.d * Y.d * Z.d * s)

/-- `add_interpolate_weights`, mpb/material_grid.c:250-311. -/
noncomputable def addInterpolateWeights (r : V3 ℝ) (data : Arr) (nx ny nz stride : ℕ) (scaleby : ℝ) (udata : Arr) (ukind : Kind)
    (uval : ℝ) : Option Arr := do
  let X := axis r.x nx
  let Y := axis r.y ny
  let Z := axis r.z nz
  let u ← combine udata ny nz stride X Y Z
  match scaleFor ukind u uval scaleby with
  | .skip => some data
  | .nan => none
  | .scale s => scatter data ny nz stride X Y Z s

end Mpb.MatGrid

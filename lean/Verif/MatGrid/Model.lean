import Verif.MatGrid.InterpModel

/-!
# Model of material grids (mpb/material_grid.c)

Values, lists, set/get, and the gradient at one point.  A material is described by the fields the code looks at; a grid's numbers are
in an array with an identity (`arr`), as the Scheme arrays of the code.  The search for the objects that contain a point
(`geom_tree_search`, `geom_tree_search_next` of libctl) is represented by its result: the list of these objects' materials, each with
the coordinates of the point in the object's box (`to_geom_box_coords`).
-/

namespace Mpb.MatGrid

/-- A `material_grid` (mpb/mpb.scm.in:65-86). -/
structure MGrid where
  kind : Kind
  epsMin : ℝ
  epsMax : ℝ
  muMin : ℝ
  muMax : ℝ
  nx : ℕ
  ny : ℕ
  nz : ℕ
  arr : ℕ

/-- `size.x * size.y * size.z`, e.g. mpb/material_grid.c:178. -/
def MGrid.ntot (g : MGrid) : ℕ := g.nx * g.ny * g.nz

/-- A `material_type`: an ordinary medium, the "nothing" material, a function, or a grid. -/
inductive Mat
  | medium
  | self
  | func
  | grid (g : MGrid)

open Classical in
/-- `compatible_matgrids`, mpb/material_grid.c:87-95; the grid of the material if it is compatible. -/
noncomputable def compatible (mg : MGrid) (m : Mat) : Option MGrid :=
  match m with
  | .grid g => if g.kind = mg.kind ∧ g.epsMin = mg.epsMin ∧ g.epsMax = mg.epsMax then some g else none
  | _ => none

/-- The grids visited from the second object on, and the default material, mpb/material_grid.c:112-125 (and 341-383). -/
noncomputable def visitRest (mg : MGrid) (dflt : Mat) (pd : V3 ℝ) : List (Mat × V3 ℝ) → List (MGrid × V3 ℝ)
  | [] => match compatible mg dflt with
    | some g => [(g, pd)]
    | none => []
  | (m, p) :: rest => match compatible mg m with
    | some g => (g, p) :: visitRest mg dflt pd rest
    | none => []

/-- The grids visited, mpb/material_grid.c:103-125: the material of the first object is used as a grid without a test (`none` if it is
not one). -/
noncomputable def visit (mg : MGrid) (dflt : Mat) (pd : V3 ℝ) : List (Mat × V3 ℝ) → Option (List (MGrid × V3 ℝ))
  | [] => some (visitRest mg dflt pd [])
  | (.grid g, p) :: rest => some ((g, p) :: visitRest mg dflt pd rest)
  | _ :: _ => none

/-- The arrays of all grids. -/
abbrev Mem := ℕ → Arr

/-- `material_grid_val`, mpb/material_grid.c:75-83. -/
noncomputable def gridVal (U : Mem) (l : MGrid × V3 ℝ) : Option ℝ := linearInterpolate l.2 (U l.1.arr) l.1.nx l.1.ny l.1.nz 1

/-- The result of mpb/material_grid.c:126-128 from the values `u` in the order visited. -/
noncomputable def combineKind (kind : Kind) (us : List ℝ) : ℝ :=
  match kind with
  | .uMin => us.foldl (fun m u => if u < m then u else m) 1
  | .uProd => us.foldl (fun m u => m * u) 1
  | .uSum => us.foldl (fun m u => m + u) 0 / us.length

/-- `matgrid_val`, mpb/material_grid.c:98-129, and `matgrid_val_count`. -/
noncomputable def matgridVal (U : Mem) (st : List (Mat × V3 ℝ)) (dflt : Mat) (pd : V3 ℝ) (mg : MGrid) : Option (ℝ × ℕ) := do
  let ls ← visit mg dflt pd st
  let us ← ls.mapM (gridVal U)
  return (combineKind mg.kind us, us.length)

/-- The dielectric constant `epsilon_func` uses at a point whose material is a material grid (mpb/epsilon.c:111-141, 164-179), without
an epsilon input file; `none` also if the material is not a grid. -/
noncomputable def gridEps (U : Mem) (st : List (Mat × V3 ℝ)) (dflt : Mat) (pd : V3 ℝ) : Option ℝ :=
  let (material, st) := match st with
    | [] => (dflt, [])
    | (.self, _) :: _ => (dflt, [])
    | (m, p) :: rest => (m, (m, p) :: rest)
  match material with
  | .grid mg => (matgridVal U st dflt pd mg).map fun v => v.1 * (mg.epsMax - mg.epsMin) + mg.epsMin
  | _ => none

open Classical in
/-- The position of a grid's numbers in the gradient, mpb/material_grid.c:344-352: `none` if the grid is not in the list (the `CHECK`). -/
noncomputable def findOff (g : MGrid) : List MGrid → Option ℕ
  | [] => none
  | h :: t => if h = g then some 0 else (findOff g t).map (· + h.ntot)

/-- A call of `add_interpolate_weights` on the part of `v` from `off` on, mpb/material_grid.c:353-357. -/
noncomputable def addAt (v : Arr) (off : ℕ) (f : Arr → Option Arr) : Option Arr :=
  (f ⟨v.len - off, fun i => v.get (off + i)⟩).map fun w => ⟨v.len, fun i => if i < off then v.get i else w.get (i - off)⟩

/-- One iteration of the loop at mpb/material_grid.c:338-361, and mpb/material_grid.c:362-383. -/
noncomputable def gradLayer (U : Mem) (grids : List MGrid) (scale : ℝ) (kind : Kind) (uval : ℝ) (v : Arr) (l : MGrid × V3 ℝ) : Option Arr := do
  let off ← findOff l.1 grids
  addAt v off fun w => addInterpolateWeights l.2 w l.1.nx l.1.ny l.1.nz 1 scale (U l.1.arr) kind uval

/-- The grid of a point, mpb/material_grid.c:324-330. -/
def gradGrid (st : List (Mat × V3 ℝ)) (dflt : Mat) : Option MGrid :=
  match st with
  | (.grid g, _) :: _ => some g
  | _ :: _ => none
  | [] => match dflt with
    | .grid g => some g
    | _ => none

/-- `scalegrad` after mpb/material_grid.c:333-335. -/
noncomputable def gradScale (mg : MGrid) (count : ℕ) (scalegrad : ℝ) : ℝ :=
  let s := scalegrad * (mg.epsMax - mg.epsMin)
  if mg.kind = .uSum then s / count else s

/-- `material_grids_addgradient_point`, mpb/material_grid.c:313-384. -/
noncomputable def addGradientPoint (U : Mem) (v : Arr) (st : List (Mat × V3 ℝ)) (dflt : Mat) (pd : V3 ℝ) (scalegrad : ℝ)
    (grids : List MGrid) : Option Arr :=
  match gradGrid st dflt with
  | none => some v
  | some mg => do
    let (uval, count) ← matgridVal U st dflt pd mg
    let ls ← visit mg dflt pd st
    ls.foldlM (gradLayer U grids (gradScale mg count scalegrad) mg.kind uval) v

open Classical in
/-- One grid of `get_material_grids`, mpb/material_grid.c:140-154, 157-170: added unless an equal one is in the list already. -/
noncomputable def addGrid (grids : List MGrid) (m : Mat) : List MGrid :=
  match m with
  | .grid g => if g ∈ grids then grids else grids ++ [g]
  | _ => grids

/-- `get_material_grids`, mpb/material_grid.c:134-172: the objects' materials, then the default material. -/
noncomputable def getMaterialGrids (objs : List Mat) (dflt : Mat) : List MGrid := addGrid (objs.foldl addGrid []) dflt

/-- `material_grids_ntot`, mpb/material_grid.c:174-180. -/
def ntotAll (grids : List MGrid) : ℕ := grids.foldl (fun n g => n + g.ntot) 0

/-- The copying loop of one grid in `material_grids_set`, mpb/material_grid.c:192-193; `none`: an access outside an array. -/
noncomputable def setOne (u : Arr) (j : ℕ) (n : ℕ) (a : Arr) : Option Arr :=
  if j + n ≤ u.len ∧ n ≤ a.len then some ⟨a.len, fun k => if k < n then u.get (j + k) else a.get k⟩ else none

/-- `material_grids_set`, mpb/material_grid.c:184-197. -/
noncomputable def materialGridsSet (u : Arr) : List MGrid → ℕ → Mem → Option Mem
  | [], _, U => some U
  | g :: gs, j, U => do
    let a ← setOne u j g.ntot (U g.arr)
    materialGridsSet u gs (j + g.ntot) (Function.update U g.arr a)

/-- The copying loop of one grid in `material_grids_get`, mpb/material_grid.c:207-208. -/
noncomputable def getOne (a : Arr) (j : ℕ) (n : ℕ) (u : Arr) : Option Arr :=
  if j + n ≤ u.len ∧ n ≤ a.len then some ⟨u.len, fun k => if j ≤ k ∧ k < j + n then a.get (k - j) else u.get k⟩ else none

/-- `material_grids_get`, mpb/material_grid.c:199-212. -/
noncomputable def materialGridsGet (U : Mem) : List MGrid → ℕ → Arr → Option Arr
  | [], _, u => some u
  | g :: gs, j, u => do
    let u ← getOne (U g.arr) j g.ntot u
    materialGridsGet U gs (j + g.ntot) u

end Mpb.MatGrid

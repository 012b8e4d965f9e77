import Verif.MatGrid.ToolsModel
import Verif.MatGrid.Model
import Verif.Field.EnergyModel
import Verif.Tensor.Model

/-!
# Model of `material-grids-addgradient` over the whole cell (mpb/material_grid.c:386-470)

The search for the objects at a point (`geom_tree_search`, libctl) is the parameter `look`: the materials and the point in the
coordinates of each object, the topmost first.  `shift` is libctl's `shift_to_unit_cell`.
-/

namespace Mpb.MatGrid
open Mpb.Field Mpb.Maxwell Mpb.Tensor

/-- What stands for the geometry: the objects at a point, the default material, the lattice size (1 in the directions without
size) and which directions have no size. -/
structure Geom where
  look : V3 ℝ → List (Mat × V3 ℝ)
  dflt : Mat
  size : V3 ℝ
  noSize : V3 Bool
  shift : V3 ℝ → V3 ℝ

/-- mpb/material_grid.c:409-421: the position of a grid point. -/
noncomputable def pointPos (S : Shape) (size : V3 ℝ) (q : ℕ × ℕ × ℕ) : V3 ℝ :=
  ⟨q.1 * (size.x / S.nx) - (if S.nx ≤ 1 then 0 else size.x * (1 / 2)),
   q.2.1 * (size.y / S.ny) - (if S.ny ≤ 1 then 0 else size.y * (1 / 2)),
   q.2.2 * (size.z / S.nz) - (if S.nz ≤ 1 then 0 else size.z * (1 / 2))⟩

/-- mpb/epsilon.c:106-108: the position at which the dielectric function is evaluated, for the lattice coordinate `r`. -/
noncomputable def epsPos (g : Geom) (r : V3 ℝ) : V3 ℝ :=
  ⟨if g.noSize.x then 0 else (r.x - 1 / 2) * g.size.x, if g.noSize.y then 0 else (r.y - 1 / 2) * g.size.y,
   if g.noSize.z then 0 else (r.z - 1 / 2) * g.size.z⟩

/-- The `MEDIUM` case of `material_epsilon`, mpb/epsilon.c:25-42: the tensor and its inverse. -/
noncomputable def isoEps (e : ℝ) : HMat × HMat := (⟨e, e, e, 0, 0, 0⟩, ⟨1 / e, 1 / e, 1 / e, 0, 0, 0⟩)

/-- The dielectric constant of a point whose material is a grid (mpb/epsilon.c:113-179). -/
noncomputable def Geom.eps (g : Geom) (U : Mem) (p : V3 ℝ) : Option ℝ :=
  gridEps U (g.look p) g.dflt (defaultPos g.noSize p g.size)

/-- `epsilon_func`, mpb/epsilon.c:93-184, without an epsilon input file.  Where the material is not a grid the tensors are those of
`other` (any function of the position: it does not look at the grids). -/
noncomputable def epsilonFunc (g : Geom) (U : Mem) (other : V3 ℝ → HMat × HMat) (r : V3 ℝ) : HMat × HMat :=
  match g.eps U (g.shift (epsPos g r)) with
  | some e => isoEps e
  | none => other (g.shift (epsPos g r))

/-- `material_grids_addgradient_point` at the point `p`. -/
noncomputable def Geom.addPoint (g : Geom) (U : Mem) (grids : List MGrid) (v : Arr) (p : V3 ℝ) (scale : ℝ) : Option Arr :=
  addGradientPoint U v (g.look p) g.dflt (defaultPos g.noSize p g.size) scale grids

/-- One pass of the loop, mpb/material_grid.c:423-453.  `j0` is the uninitialised `last_index` of the inversion-symmetric build (see
`Mpb.Field.xyzSum`). -/
noncomputable def gradStep (S : Shape) (g : Geom) (U : Mem) (grids : List MGrid) (j0 : ℤ) (Esqr : ℕ → ℝ) (scale : ℝ) (v : Arr) (q : Visit) :
    Option Arr := do
  let w ← g.addPoint U grids v (pointPos S g.size q.pt) (Esqr q.idx * scale)
  if S.doubled j0 then g.addPoint U grids w (pointPos S g.size (S.mirror q.pt)) (Esqr q.idx * scale) else some w

/-- The loop, mpb/material_grid.c:422-455. -/
noncomputable def gradLoop (S : Shape) (g : Geom) (U : Mem) (grids : List MGrid) (j0 : ℤ) (Esqr : ℕ → ℝ) (scale : ℝ) (v : Arr) : Option Arr :=
  (visits S).foldlM (gradStep S g U grids j0 Esqr scale) v

/-- `get_efield` and `compute_field_squared` (mpb/fields.c:194-210, 354-365): the squared electric field of band `b`. -/
noncomputable def eSquared (d : OpData) (p : ℕ) (H W0 buf buf2 : ℕ → ℂ) (freqs : ℕ → ℝ) (Vol : ℝ) (b : ℕ) : ℕ → ℝ :=
  (energyLoop (energyField 'c' d.epsInv d.muInv) (fun _ => false) d.N
    (toReals (eFromD d.N 1 d.epsInv (getD d p H W0 buf buf2 freqs Vol b)))).mem

/-- `material_grids_addgradient` with `band > 0`, mpb/material_grid.c:386-455, serial complex build; `none` if the `CHECK` at 397 fails. -/
noncomputable def addGradient (S : Shape) (g : Geom) (U : Mem) (grids : List MGrid) (d : OpData) (p : ℕ) (H W0 buf buf2 : ℕ → ℂ)
    (freqs : ℕ → ℝ) (Vol : ℝ) (numBands : ℕ) (j0 : ℤ) (v : Arr) (scalegrad : ℝ) (band : ℕ) : Option Arr :=
  if band ≤ numBands then
    let scale := scalegrad * (-freqs (band - 1) / 2)
    let scale := scale * (Vol / d.N)
    gradLoop S g U grids j0 (eSquared d p H W0 buf buf2 freqs Vol (band - 1)) scale v
  else none

/-- `print_material_grids_gradient`, mpb/material_grid.c:460-472: the numbers printed. -/
noncomputable def printedGradient (S : Shape) (g : Geom) (U : Mem) (objs : List Mat) (d : OpData) (p : ℕ) (H W0 buf buf2 : ℕ → ℂ)
    (freqs : ℕ → ℝ) (Vol : ℝ) (numBands : ℕ) (j0 : ℤ) (band : ℕ) : Option Arr :=
  let grids := getMaterialGrids objs g.dflt
  addGradient S g U grids d p H W0 buf buf2 freqs Vol numBands j0 ⟨ntotAll grids, fun _ => 0⟩ 1 band

end Mpb.MatGrid

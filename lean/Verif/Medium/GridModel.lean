import Verif.Medium.Model

/-! # The materials of a point with the values of the material grids (mpb/epsilon.c:93-184 with `matgrid_val`, mpb/material_grid.c:98-129) -/

namespace Mpb.Medium

open Mpb.Tensor Mpb.MatGrid

/-- What `matgrid_val` sees of a material (`which_subclass` and the union). -/
def Material.shape : Material → Mat
  | .grid g => .grid g
  | .func _ => .func
  | .self => .self
  | _ => .medium

/-- mpb/epsilon.c:144-182 with the value of `matgrid_val`: `none` is undefined behaviour (the union of an object's material that is not a grid is
read as a grid, mpb/material_grid.c:105-108).  A mean of no values is 0/0. -/
noncomputable def evaluateAt (herm : Bool) (w : Which) (U : Mem) (pd p : V3 ℝ) (st : List (Material × V3 ℝ)) (dflt m : Material) :
    Option (Res (HMat × HMat)) :=
  match m.resolve p with
  | .grid g => (matgridVal U (st.map fun x => (x.1.shape, x.2)) dflt.shape pd g).map fun v =>
      if g.kind = .uSum ∧ v.2 = 0 then .nonFinite else materialTensor herm w (gridMedium w g v.1)
  | m => some (materialTensor herm w m)

/-- `epsilon_func` and `mu_func`, mpb/epsilon.c:93-184: `st` are the objects that contain the point, the topmost first, each with the coordinates of
the point in its box; `pd` are those in the lattice; `U` the contents of the grids. -/
noncomputable def tensorFull (herm : Bool) (w : Which) (file : Option (HMat × HMat)) (U : Mem) (pd p : V3 ℝ) (st : List (Material × V3 ℝ)) (dflt : Material) :
    Option (Res (HMat × HMat)) :=
  match st, file with
  | [], some f => some (.ok f)
  | [], none => evaluateAt herm w U pd p [] dflt dflt
  | (.self, _) :: _, some f => some (.ok f)
  | (.self, _) :: _, none => evaluateAt herm w U pd p [] dflt dflt
  | (m, q) :: rest, _ => evaluateAt herm w U pd p ((m, q) :: rest) dflt m

end Mpb.Medium

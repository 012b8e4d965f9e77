import Verif.MatGrid.FreqModel
import Verif.Epsilon.Model

/-!
# Model of the objective of `material-grids-match-epsilon-file!` (mpb/material_grid.c:797-985), serial builds

`reset_epsilon` (mpb/epsilon.c) is the parameter `reset`: the inverse dielectric tensors of the pixels for the grid values in memory.
-/

namespace Mpb.MatGrid
open Mpb.Field Mpb.Maxwell Mpb.Tensor Mpb.Epsilon

/-- The data of the target file, mpb/material_grid.c:799-805, 997-1004. -/
structure Target where
  eps : Arr
  nx : ℕ
  ny : ℕ
  nz : ℕ

/-- `eps0`, mpb/material_grid.c:920-923, 950-953. -/
noncomputable def eps0At (S : Shape) (T : Target) (q : ℕ × ℕ × ℕ) : Option ℝ :=
  linearInterpolate ⟨(q.1 + 1 / 2) / S.nx, (q.2.1 + 1 / 2) / S.ny, (q.2.2 + 1 / 2) / S.nz⟩ T.eps T.nx T.ny T.nz 1

/-- The second half of the body, mpb/material_grid.c:943-966 (inversion-symmetric build): `epsilon` and `scalegrad` are those of the
stored point. -/
noncomputable def matchMirror (S : Shape) (g : Geom) (U : Mem) (grids : List MGrid) (T : Target) (grad : Bool) (epsilon scalegrad : ℝ)
    (st : ℝ × Arr) (q : Visit) : Option (ℝ × Arr) := do
  let e0 ← eps0At S T (S.mirror q.pt)
  let val := st.1 + (epsilon - e0) * (epsilon - e0)
  let w ← if grad then g.addPoint U grids st.2 (pointPos S g.size (S.mirror q.pt)) scalegrad else some st.2
  some (val, w)

/-- The body of the loop, mpb/material_grid.c:914-968: the running `val` and `work`. -/
noncomputable def matchStep (S : Shape) (g : Geom) (U : Mem) (grids : List MGrid) (heev : Heev) (T : Target) (epsInv : ℕ → HMat) (scaleby : ℝ)
    (grad : Bool) (st : ℝ × Arr) (q : Visit) : Option (ℝ × Arr) := do
  let epsilon ← meanMedium heev (epsInv q.idx)
  let e0 ← eps0At S T q.pt
  let val := st.1 + (epsilon - e0) * (epsilon - e0)
  let scalegrad := 2 * scaleby * (epsilon - e0)
  let w ← if grad then g.addPoint U grids st.2 (pointPos S g.size q.pt) scalegrad else some st.2
  if S.doubled q.j then matchMirror S g U grids T grad epsilon scalegrad (val, w) q else some (val, w)

/-- `match_eps_func`, mpb/material_grid.c:807-985, serial: the value and the array `grad` (`work` if `grad` is NULL).  `N` is `H.N`. -/
noncomputable def matchEps (S : Shape) (g : Geom) (U0 : Mem) (grids : List MGrid) (heev : Heev) (T : Target) (reset : Mem → Option (ℕ → HMat))
    (N n : ℕ) (work : Arr) (grad : Bool) (u : Arr) : Option (ℝ × Arr) := do
  let scaleby := 1 / (N : ℝ)
  let U ← materialGridsSet u grids 0 U0
  let epsInv ← reset U
  let work : Arr := if grad then ⟨n, fun _ => 0⟩ else work
  let r ← (visits S).foldlM (matchStep S g U grids heev T epsInv scaleby grad) (0, work)
  some (r.1 * scaleby, r.2)

end Mpb.MatGrid

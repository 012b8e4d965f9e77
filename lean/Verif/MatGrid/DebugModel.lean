import Verif.MatGrid.MatchModel
import Verif.MatOpt.StartModel

/-!
# Model of the debugging functions of material grids (mpb/material_grid.c:474-684)

`print-material-grids-deps-du`, `print-material-grids-deps-du-numeric` and `material-grids-approx-gradient`, one process.  As in the model of
`match-epsilon-file`, `reset_epsilon` is the parameter `reset`: the inverse dielectric tensors for the grid values in memory.  Numbers are exact.
-/

namespace Mpb.MatGrid
open Mpb.Field Mpb.Maxwell Mpb.Tensor Mpb.Epsilon

/-- The `index` of mpb/material_grid.c:533, 646, 662 and 673. -/
def flatIdx (S : Shape) (q : ℕ × ℕ × ℕ) : ℕ := (q.1 * S.ny + q.2.1) * S.nz + q.2.2

/-- `mean_medium_from_matrix(mdata->eps_inv + index)`, mpb/material_grid.c:608, 647, 664; `none` outside of the array, which has
`fft_output_size` tensors. -/
noncomputable def meanAt (S : Shape) (heev : Heev) (epsInv : ℕ → HMat) (i : ℕ) : Option ℝ :=
  if i < S.outSize then meanMedium heev (epsInv i) else none

/-- A printed line: the dielectric constant, the index and one number for each grid value (mpb/material_grid.c:607-611, 674-677). -/
structure DepsLine where
  eps : ℝ
  index : ℕ
  du : List ℝ

/-- `print_material_grids_deps_du`, mpb/material_grid.c:502-622.  Lines 551-603 repeat `material_grids_addgradient_point` with
`scalegrad = 1` on an array of zeros. -/
noncomputable def depsDu (S : Shape) (g : Geom) (U : Mem) (objs : List Mat) (heev : Heev) (epsInv : ℕ → HMat) : Option (List DepsLine) :=
  let grids := getMaterialGrids objs g.dflt
  (loop3 S.nx S.ny S.nz).mapM fun q => do
    let v ← g.addPoint U grids ⟨ntotAll grids, fun _ => 0⟩ (pointPos S g.size q) 1
    let e ← meanAt S heev epsInv (flatIdx S q)
    some ⟨e, flatIdx S q, (List.range (ntotAll grids)).map v.get⟩

/-- The loops that read the dielectric constants, mpb/material_grid.c:641-648, 655-666. -/
noncomputable def readAll (S : Shape) (heev : Heev) (epsInv : ℕ → HMat) : Option (List ℝ) :=
  (loop3 S.nx S.ny S.nz).mapM fun q => meanAt S heev epsInv (flatIdx S q)

/-- `u`, the arrays of the grids, and the columns of `v` filled so far. -/
structure NumSt where
  u : Arr
  mem : Mem
  cols : List (List ℝ)

/-- One pass of the loop over the grid values, mpb/material_grid.c:650-668. -/
noncomputable def numStep (S : Shape) (heev : Heev) (reset : Mem → Option (ℕ → HMat)) (grids : List MGrid) (du : ℝ) (ep : List ℝ) (s : NumSt) (iu : ℕ) :
    Option NumSt := do
  let u ← s.u.write iu (s.u.get iu + du)
  let U ← materialGridsSet u grids 0 s.mem
  let e ← reset U
  let epn ← readAll S heev e
  let u ← u.write iu (u.get iu - du)
  some ⟨u, U, s.cols ++ [List.zipWith (fun a b => (a - b) / du) epn ep]⟩

/-- `print_material_grids_deps_du_numeric`, mpb/material_grid.c:624-684: the lines, the arrays of the grids and the dielectric function it leaves.
`junk` is what `malloc` leaves in `u`. -/
noncomputable def depsDuN (S : Shape) (heev : Heev) (reset : Mem → Option (ℕ → HMat)) (U : Mem) (grids : List MGrid) (junk : ℕ → ℝ) (du : ℝ) :
    Option (List DepsLine × Mem × (ℕ → HMat)) := do
  let u ← materialGridsGet U grids 0 ⟨ntotAll grids, junk⟩
  let e ← reset U
  let ep ← readAll S heev e
  let s ← (List.range (ntotAll grids)).foldlM (numStep S heev reset grids du ep) ⟨u, U, []⟩
  let lines := (loop3 S.nx S.ny S.nz).map fun q => (⟨ep.getD (flatIdx S q) 0, flatIdx S q, s.cols.map fun c => c.getD (flatIdx S q) 0⟩ : DepsLine)
  let U ← materialGridsSet s.u grids 0 s.mem
  let e ← reset U
  some (lines, U, e)

/-- The state `material-grids-approx-gradient` works on: the arrays of the grids, the dielectric function in use and the list `freqs`. -/
structure RunSt where
  mem : Mem
  eps : ℕ → HMat
  freqs : List ℝ

/-- `u[iu]` for an integer `iu`. -/
def Arr.readZ (u : Arr) (iu : ℤ) : Option ℝ := if 0 ≤ iu ∧ iu < u.len then some (u.get iu.toNat) else none

/-- `material_grids_approx_gradient`, mpb/material_grid.c:474-500: what it returns, the analytic derivative it prints, and the state it leaves.
`solve` stands for `solve_kpoint` at the given wavevector (the frequencies as a function of the dielectric function, without the history of
the iteration), `grad` for `material_grids_addgradient` (C86). -/
noncomputable def approxGradient (grids : List MGrid) (reset : Mem → Option (ℕ → HMat)) (solve : (ℕ → HMat) → List ℝ)
    (grad : RunSt → Arr → Option Arr) (band iu : ℤ) (du : ℝ) (st : RunSt) : Option (ℝ × ℝ × RunSt) := do
  let st := { st with freqs := solve st.eps }
  let f0 ← MatOpt.freqItem st.freqs band
  let u ← grad st ⟨ntotAll grids, fun _ => 0⟩
  let dfdu ← u.readZ iu
  let u ← materialGridsGet st.mem grids 0 u
  let u ← u.write iu.toNat (u.get iu.toNat + du)
  let U ← materialGridsSet u grids 0 st.mem
  let e ← reset U
  let st := { mem := U, eps := e, freqs := solve e : RunSt }
  let f1 ← MatOpt.freqItem st.freqs band
  let u ← u.write iu.toNat (u.get iu.toNat - du)
  let U ← materialGridsSet u grids 0 st.mem
  let e ← reset U
  some ((f1 - f0) / du, dfdu, { st with mem := U, eps := e })

end Mpb.MatGrid

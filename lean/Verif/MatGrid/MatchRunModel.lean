import Verif.MatGrid.MatchModel

/-!
# Model of `material-grids-match-epsilon-file!` (mpb/material_grid.c:987-1042), serial builds

NLopt is a parameter: a function from what it has seen so far (the points at which it asked for the objective, with the values and gradients
it got) to its next move.  The objective is `matchEps` (MatchModel.lean) with its effects on the grids and on the stored dielectric tensors.
-/

namespace Mpb.MatGrid
open Mpb.Field Mpb.Maxwell Mpb.Tensor Mpb.Epsilon

/-- The contents of the grids, the stored inverse dielectric tensors, and `d.iter`. -/
structure MatchState where
  mem : Mem
  eps : ℕ → HMat
  iter : ℕ

/-- One evaluation of the objective by NLopt (with gradient), mpb/material_grid.c:807-985: it writes the grids (822), resets the dielectric
function (823) and counts (825); the value and gradient are those of `matchEps`. -/
noncomputable def matchCall (S : Shape) (g : Geom) (grids : List MGrid) (heev : Heev) (T : Target) (reset : Mem → Option (ℕ → HMat)) (N n : ℕ)
    (s : MatchState) (u : Arr) : Option ((ℝ × Arr) × MatchState) := do
  let r ← matchEps S g s.mem grids heev T reset N n ⟨n, fun _ => 0⟩ true u
  let U ← materialGridsSet u grids 0 s.mem
  let e ← reset U
  some (r, ⟨U, e, s.iter + 1⟩)

/-- What NLopt does next: ask for the objective at a point, or return the code `res`, the point and the value `func_min`. -/
inductive Move where
  | eval (u : Arr)
  | stop (res : ℤ) (u : Arr) (fmin : ℝ)

/-- `nlopt_minimize(NLOPT_LD_MMA, ...)`: starting point, lower and upper bounds, tolerances, evaluations so far. -/
abbrev Nlopt := Arr → (ℕ → ℝ) → (ℕ → ℝ) → (ℕ → ℝ) → List (Arr × ℝ × Arr) → Move

/-- The evaluations until NLopt returns; `none` if it has not returned after `fuel` moves (or if an evaluation is undefined). -/
noncomputable def minimise (f : MatchState → Arr → Option ((ℝ × Arr) × MatchState)) (o : List (Arr × ℝ × Arr) → Move) :
    ℕ → List (Arr × ℝ × Arr) → MatchState → Option ((ℤ × Arr × ℝ) × MatchState)
  | 0, _, _ => none
  | fuel + 1, h, s =>
    match o h with
    | .stop r u m => some ((r, u, m), s)
    | .eval u =>
      match f s u with
      | none => none
      | some (v, s') => minimise f o fuel (h ++ [(u, v.1, v.2)]) s'

/-- mpb/material_grid.c:1013-1018: `lb`. -/
noncomputable def matchLow (grids : List MGrid) : ℝ := if grids.any (fun g => g.kind = .uProd) then 1e-4 else 0

/-- mpb/material_grid.c:1019: the starting point. -/
noncomputable def clampLow (low : ℝ) (n : ℕ) (u : Arr) : Arr := ⟨n, fun i => if u.get i < low then low else u.get i⟩

/-- `material_grids_match_epsilon_fileB`, mpb/material_grid.c:987-1042.  `T` is what `matrixio_read_real_data` found (`none`: no dataset),
`junk` what `malloc` leaves in `u`, `fuel` bounds the number of moves of NLopt.  `.error`: a `CHECK` failed; else the number printed and the
state. -/
noncomputable def matchFile (S : Shape) (g : Geom) (grids : List MGrid) (heev : Heev) (reset : Mem → Option (ℕ → HMat)) (N : ℕ) (nlopt : Nlopt)
    (T : Option Target) (tol : ℝ) (junk : ℕ → ℝ) (fuel : ℕ) (s : MatchState) : Option (Except Unit (ℝ × MatchState)) :=
  match T with
  | none => some (.error ())
  | some T => do
    let n := ntotAll grids
    let low := matchLow grids
    let u ← materialGridsGet s.mem grids 0 ⟨n, junk⟩
    let r ← minimise (matchCall S g grids heev T reset N n) (nlopt (clampLow low n u) (fun _ => low) (fun _ => 1) (fun _ => tol)) fuel []
      ⟨s.mem, s.eps, 0⟩
    if 0 < r.1.1 then do
      let U ← materialGridsSet r.1.2.1 grids 0 r.2.mem
      let e ← reset U
      some (.ok (Real.sqrt r.1.2.2, ⟨U, e, r.2.iter⟩))
    else some (.error ())

end Mpb.MatGrid

import Verif.MatGrid.ToolsModel
import Mathlib.Algebra.BigOperators.Group.Finset.Basic
import Mathlib.Data.Fintype.BigOperators

/-!
# Model of the optimisation of material grids (mpb/material_grid_opt.c)

The objective and constraint functions handed to the optimiser, as functions on the program's state.  The solver is represented by what
it is run on: a solution is the record of the dielectric function (the contents of the material grids when it was computed), the k-point,
the parity and the number of the run; its frequencies and the gradients of its frequencies are arbitrary functions of this record (so
that two runs may differ).  Numbers are exact.  The gradients on the processes are added up by `mpi_allreduce`.
-/

namespace Mpb.MatOpt

open MatGrid

/-- A run of the solver: what it was run on. -/
structure Sol where
  eps : Mem
  k : V3 ℝ
  parity : ℤ
  id : ℕ

/-- What does not change during an optimisation: the fields of `maxgap_func_data` and `mindiff_func_data` (mpb/material_grid_opt.c:38-46,
142-151) that are set at the beginning, and the parameters of the model: `freq s b` is `freqs.items[b-1]` after the run `s`, and
`dfreq s b p i` the number `material_grids_addgradient` adds (for a scale of 1) to entry `i` on the process `p`. -/
structure Env (P : ℕ) where
  grids : List MGrid
  ks : List (V3 ℝ)
  b1 : ℕ
  b2 : ℕ
  doMin : Bool
  freq : Sol → ℕ → ℝ
  dfreq : Sol → ℕ → Fin P → ℕ → ℝ

/-- The state: the material grids, the dielectric function in use (as the grids it was computed from), `cur_kvector`, the last run of
the solver, the number of runs, the parity, and the variable fields of the data: `iter`, `unsolved`, `f1s`, `f2s`, `work`. -/
structure St (P : ℕ) where
  mem : Mem
  eps : Mem
  curK : V3 ℝ
  sol : Option Sol
  runs : ℕ
  parity : ℤ
  iter : ℕ
  unsolved : Bool
  f1s : ℕ → ℝ
  f2s : ℕ → ℝ
  work : Fin P → ℕ → ℝ

variable {P : ℕ}

/-- `randomize_fields(); solve_kpoint(k)`. -/
def solve (k : V3 ℝ) (st : St P) : St P :=
  { st with curK := k, sol := some ⟨st.eps, k, st.parity, st.runs⟩, runs := st.runs + 1 }

/-- `material_grids_set(u, ...); reset_epsilon()`, e.g. mpb/material_grid_opt.c:57-58. -/
noncomputable def setGrids (env : Env P) (u : Arr) (st : St P) : Option (St P) :=
  (materialGridsSet u env.grids 0 st.mem).map fun m => { st with mem := m, eps := m }

/-- `memset(work, 0, sizeof(double) * m)`: a negative number of bytes is undefined. -/
def clearWork (m : ℤ) (st : St P) : Option (St P) :=
  if m < 0 then none else some { st with work := fun p i => if (i : ℤ) < m then 0 else st.work p i }

/-- `material_grids_addgradient(work, scale, b, ...)`: `work` has room for the `ntot` numbers of the grids. -/
noncomputable def addGradient (env : Env P) (scale : ℝ) (b : ℕ) (s : Sol) (st : St P) : St P :=
  { st with work := fun p i => if i < ntotAll env.grids then st.work p i + scale * env.dfreq s b p i else st.work p i }

/-- `mpi_allreduce(work, grad, m, ...)`. -/
noncomputable def allreduce (st : St P) (m : ℕ) (grad : ℕ → ℝ) : ℕ → ℝ := fun i => if i < m then ∑ p, st.work p i else grad i

/-- The kind of a constraint, mpb/material_grid_opt.c:155. -/
inductive BKind
  | band1
  | band2

open Classical in
/-- mpb/material_grid_opt.c:185-189. -/
noncomputable def constraintSolve (k : V3 ℝ) (st : St P) : St P :=
  let st := if st.curK ≠ k ∨ st.unsolved = true then solve k st else st
  { st with unsolved := false }

/-- mpb/material_grid_opt.c:191-208, after the solution `s`: the value and the new state; `f1s`, `f2s` are updated. -/
noncomputable def constraintVal (env : Env P) (kind : BKind) (ik : ℕ) (lo hi : ℝ) (s : Sol) (st : St P) : ℝ × St P :=
  match kind with
  | .band1 => (env.freq s env.b1 - hi, { st with f1s := Function.update st.f1s ik (env.freq s env.b1) })
  | .band2 => (lo - env.freq s env.b2, { st with f2s := Function.update st.f2s ik (env.freq s env.b2) })

/-- The gradient part of mpb/material_grid_opt.c:191-212, for `n` variables. -/
noncomputable def constraintGrad (env : Env P) (n : ℕ) (kind : BKind) (s : Sol) (grad : ℕ → ℝ) (st : St P) : Option ((ℕ → ℝ) × St P) := do
  let st ← clearWork ((n : ℤ) - 2) st
  match kind with
  | .band1 =>
    let st := addGradient env 1 env.b1 s st
    let grad := Function.update (Function.update grad (n - 1) (-1)) (n - 2) 0
    return (allreduce st (n - 2) grad, st)
  | .band2 =>
    let st := addGradient env (-1) env.b2 s st
    let grad := Function.update (Function.update grad (n - 1) 0) (n - 2) 1
    return (allreduce st (n - 2) grad, st)

/-- `band_constraint`, mpb/material_grid_opt.c:166-215: the value, the gradient if there is room for it, the state.  `u` has `n` entries. -/
noncomputable def bandConstraint (env : Env P) (n : ℕ) (u : Arr) (grad : Option (ℕ → ℝ)) (ik : ℕ) (kind : BKind) (st : St P) :
    Option (ℝ × Option (ℕ → ℝ) × St P) := do
  let k ← env.ks[ik]?
  let st := constraintSolve k st
  let s ← st.sol
  let r ← match grad with
    | none => some (none, st)
    | some g => (constraintGrad env n kind s g st).map fun r => (some r.1, r.2)
  let hi ← u.read ((n : ℤ) - 1)
  let lo ← u.read ((n : ℤ) - 2)
  let (v, st) := constraintVal env kind ik lo hi s r.2
  return (v, r.1, st)

/-- The gradient of mpb/material_grid_opt.c:232-240. -/
noncomputable def gapGrad (n : ℕ) (doMin : Bool) (f1 f2 : ℝ) : ℕ → ℝ := fun i =>
  let g1 := 2.0 * ((f1 + f2) - (f1 - f2)) / ((f1 + f2) * (f1 + f2))
  let g2 := 2.0 * (-(f1 + f2) - (f1 - f2)) / ((f1 + f2) * (f1 + f2))
  if i = n - 1 then (if doMin then -g1 else g1) else if i = n - 2 then (if doMin then -g2 else g2) else 0

/-- mpb/material_grid_opt.c:230. -/
noncomputable def gapOf (f1 f2 : ℝ) : ℝ := (f2 - f1) * 2.0 / (f1 + f2)

/-- `maxgap_func`, mpb/material_grid_opt.c:217-253: the value, the gradient and the state (without the output of lines 242-250). -/
noncomputable def maxgapFunc (env : Env P) (n : ℕ) (u : Arr) (st : St P) : Option (ℝ × (ℕ → ℝ) × St P) := do
  let f1 ← u.read ((n : ℤ) - 1)
  let f2 ← u.read ((n : ℤ) - 2)
  let st ← setGrids env u st
  let st := { st with iter := st.iter + 1, unsolved := true }
  return (if env.doMin then gapOf f1 f2 else -gapOf f1 f2, gapGrad n env.doMin f1 f2, st)

/-- `mindiff_func`, mpb/material_grid_opt.c:48-87, with a gradient; the k-point is `k`, the band `b1`.  The parities are
`EVEN_Z_PARITY` and `ODD_Z_PARITY` (src/maxwell/maxwell.h). -/
noncomputable def mindiffFunc (env : Env P) (k : V3 ℝ) (n : ℕ) (u : Arr) (grad : ℕ → ℝ) (st : St P) : Option (ℝ × (ℕ → ℝ) × St P) := do
  let st ← setGrids env u { st with iter := st.iter + 1 }
  let st ← clearWork ((n : ℤ) - 2) st
  let st := solve k { st with parity := 1 }
  let s2 ← st.sol
  let st := addGradient env 1 env.b1 s2 st
  let st := solve k { st with parity := 2 }
  let s1 ← st.sol
  let st := addGradient env (-1) env.b1 s1 st
  return (env.freq s2 env.b1 - env.freq s1 env.b1, allreduce st n grad, st)

/-- One update at mpb/material_grid_opt.c:296-299 and 342-345: `u[n-1]` (`hi`) and `u[n-2]` (`lo`, `none`: infinite). -/
noncomputable def updateGap (kind : BKind) (ik : ℕ) (st : St P) (g : ℝ × Option ℝ) : ℝ × Option ℝ :=
  match kind with
  | .band1 => if st.f1s ik > g.1 then (st.f1s ik, g.2) else g
  | .band2 => match g.2 with
    | none => (g.1, some (st.f2s ik))
    | some lo => if st.f2s ik < lo then (g.1, some (st.f2s ik)) else g

/-- The value of `band_constraint` is not used in the loops at mpb/material_grid_opt.c:287-300, 338-347; `u[n-1]` and `u[n-2]` only
enter this value, so that the state after the call is that for any array `u` of length `n`. -/
noncomputable def scanOne (env : Env P) (n : ℕ) (u : Arr) (kind : BKind) (ik : ℕ) (r : St P × (ℝ × Option ℝ)) : Option (St P × (ℝ × Option ℝ)) := do
  let c ← bandConstraint env n u none ik kind r.1
  return (c.2.2, updateGap kind ik c.2.2 r.2)

/-- The body of the loop over the k-points, mpb/material_grid_opt.c:338-347. -/
noncomputable def scanK (env : Env P) (n : ℕ) (u : Arr) (r : St P × (ℝ × Option ℝ)) (ik : ℕ) : Option (St P × (ℝ × Option ℝ)) := do
  let r ← scanOne env n u .band1 ik r
  scanOne env n u .band2 ik r

/-- The end of `material_grids_maxmin_gap`, mpb/material_grid_opt.c:332-362: the objective for the final `u`, the loop over the k-points,
the gap; the value returned is `func_min` before line 353 for both signs of `do_min`.  The result is `none` without k-points (the lower
edge is infinite). -/
noncomputable def finish (env : Env P) (n : ℕ) (u : Arr) (st : St P) : Option ℝ := do
  let (_, _, st) ← maxgapFunc env n u st
  let (_, (hi, lo)) ← (List.range env.ks.length).foldlM (scanK env n u) (st, (0, none))
  let lo ← lo
  let funcMin := (lo - hi) * 2.0 / (hi + lo)
  let funcMin := if env.doMin then funcMin else -funcMin
  return if env.doMin then funcMin else -funcMin

/-- What an optimiser can do: evaluate the objective, or a constraint, at any point. -/
inductive Op
  | objective (u : Arr)
  | constraint (u : Arr) (grad : Option (ℕ → ℝ)) (ik : ℕ) (kind : BKind)

/-- What it sees: the value and the gradient. -/
abbrev Out := ℝ × Option (ℕ → ℝ)

/-- One call. -/
noncomputable def step (env : Env P) (n : ℕ) (st : St P) : Op → Option (Out × St P)
  | .objective u => (maxgapFunc env n u st).map fun r => ((r.1, some r.2.1), r.2.2)
  | .constraint u grad ik kind => (bandConstraint env n u grad ik kind st).map fun r => ((r.1, r.2.1), r.2.2)

/-- A sequence of calls, and the results. -/
noncomputable def run (env : Env P) (n : ℕ) : St P → List Op → Option (List Out × St P)
  | st, [] => some ([], st)
  | st, op :: ops => do
    let (o, st) ← step env n st op
    let (os, st) ← run env n st ops
    return (o :: os, st)

end Mpb.MatOpt

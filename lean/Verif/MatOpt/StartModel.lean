import Verif.MatOpt.Model

/-!
# Model of the beginning of a gap optimisation (mpb/material_grid_opt.c:255-315)
-/

namespace Mpb.MatOpt

open MatGrid

variable {P : ℕ}

/-- What is handed to the optimiser: the starting point, the bounds (`ub`: `none` is infinite), and the state of the program. -/
structure Begin (P : ℕ) where
  u : Arr
  lb : ℕ → ℝ
  ub : ℕ → Option ℝ
  st : St P

/-- mpb/material_grid_opt.c:303-304: whether a grid is of the kind U_PROD. -/
def haveUprod (grids : List MGrid) : Bool := grids.any fun g => g.kind = .uProd

/-- mpb/material_grid_opt.c:310: the lower bound of the degrees of freedom. -/
noncomputable def lowest (grids : List MGrid) : ℝ := if haveUprod grids then 1e-4 else 0

/-- `material_grids_maxmin_gap`, mpb/material_grid_opt.c:255-315, up to the call of the optimiser.  `junk` is what `malloc` leaves in `u`.
`.error`: the `CHECK` of the band numbers.  Without k-points the edge `u[n-2]` is infinite; this case is not modelled (`none`). -/
noncomputable def beginGap (env : Env P) (numBands : ℕ) (junk : ℕ → ℝ) (st : St P) : Option (Except Unit (Begin P)) :=
  if ¬ (0 < env.b1 ∧ env.b1 ≤ numBands ∧ 0 < env.b2 ∧ env.b2 ≤ numBands) then some (.error ())
  else do
    let n := ntotAll env.grids + 2
    let u ← materialGridsGet st.mem env.grids 0 ⟨n, junk⟩
    let (st, (hi, lo)) ← (List.range env.ks.length).foldlM (scanK env n u) ({ st with iter := 0, unsolved := true }, (0, none))
    let lo ← lo
    let low := lowest env.grids
    return .ok ⟨⟨n, fun i => if i = n - 1 then hi * 1.001 else if i = n - 2 then lo / 1.001 else if u.get i < low then low else u.get i⟩,
      fun i => if i = n - 1 ∨ i = n - 2 then 0 else low, fun i => if i = n - 1 ∨ i = n - 2 then none else some 1, st⟩

/-- `freqs.items[b-1]` for an integer band number. -/
def freqItem (freqs : List ℝ) (b : ℤ) : Option ℝ := if 0 ≤ b - 1 then freqs[(b - 1).toNat]? else none

/-- The beginning of `material_grids_min_tetm_gap` and its first use of the band number, mpb/material_grid_opt.c:98 and 64: `.error` is the
`CHECK`, `none` a read outside the list of frequencies (`num-bands` of them). -/
def tetmBand (numBands : ℕ) (freqs : List ℝ) (band : ℤ) : Option (Except Unit ℝ) :=
  if ¬ band ≤ numBands then some (.error ()) else (freqItem freqs band).map .ok

end Mpb.MatOpt

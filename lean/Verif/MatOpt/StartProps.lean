import Verif.MatOpt.StartModel
import Verif.MatOpt.Props

/-!
# C90: the starting point of a gap optimisation
-/

namespace Mpb.MatOpt

open MatGrid MatGrid.Spec Spec

variable {P : ℕ}

/-- Specification: a starting point an optimiser with constraints accepts: within the bounds, and after the objective was evaluated there, each
constraint holds, in whatever order they are evaluated. -/
structure Spec.GoodStart (env : Env P) (n : ℕ) (b : Begin P) : Prop where
  len : b.u.len = n
  lower : ∀ i < n, b.lb i ≤ b.u.get i
  upper : ∀ i < n, ∀ B, b.ub i = some B → b.u.get i ≤ B
  feasible : ∀ (mid : List Op), (∀ op ∈ mid, OpOk env n op ∧ IsConstraint op) → ∀ ik < env.ks.length, ∀ kind, ∃ os st1 val gr st2,
    run env n b.st (.objective b.u :: mid) = some (os, st1) ∧ step env n st1 (.constraint b.u none ik kind) = some ((val, gr), st2) ∧ val ≤ 0

/-- Specification: solving the same structure at the same k-point again gives the same frequencies. -/
def Spec.Reproducible (env : Env P) : Prop :=
  ∀ (u : Arr) (s s' : Sol), Holds u env.grids s.eps → Holds u env.grids s'.eps → s.k = s'.k → ∀ b, env.freq s b = env.freq s' b

theorem ntotAll_eq (gs : List MGrid) : ntotAll gs = offset gs := by
  have h : ∀ (gs : List MGrid) (a : ℕ), gs.foldl (fun n g => n + g.ntot) a = a + offset gs := by
    intro gs
    induction gs with
    | nil => intro a; simp [offset]
    | cons g gs ih => intro a; rw [List.foldl_cons, ih, offset_cons]; omega
  have := h gs 0
  rw [zero_add] at this
  exact this

theorem offset_get {gs : List MGrid} {i : ℕ} (hi : i < offset gs) : ∃ pre g post j, gs = pre ++ g :: post ∧ j < g.nx * g.ny * g.nz ∧
    i = offset pre + j := by
  induction gs generalizing i with
  | nil => simp [offset] at hi
  | cons g gs ih =>
    rw [offset_cons] at hi
    by_cases h : i < g.ntot
    · exact ⟨[], g, gs, i, rfl, h, by simp [offset]⟩
    · obtain ⟨pre, g', post, j, h1, h2, h3⟩ := ih (i := i - g.ntot) (by omega)
      refine ⟨g :: pre, g', post, j, by rw [h1]; rfl, h2, ?_⟩
      rw [offset_cons]
      omega

/-- C90 (partial): if the dielectric function in use is that of the material grids, and the numbers in the grids are within the bounds (from 0, or
1e-4 if a grid is of the kind U_PROD, to 1), the starting point of `material-grids-maxgap` and `-mingap` is within the bounds and satisfies
the constraints.  Frequencies are reproducible and not negative. -/
theorem C90_start_partial (env : Env P) (numBands : ℕ) (hb : 0 < env.b1 ∧ env.b1 ≤ numBands ∧ 0 < env.b2 ∧ env.b2 ≤ numBands)
    (hd : DistinctArrays env.grids) (hk : 0 < env.ks.length) (junk : ℕ → ℝ) (st : St P) (ha : Allocated st.mem env.grids)
    (he : st.eps = st.mem) (hr : Reproducible env) (hpos : ∀ s b, 0 ≤ env.freq s b)
    (hu : ∀ g ∈ env.grids, ∀ i < g.nx * g.ny * g.nz,
      (if ∃ g ∈ env.grids, g.kind = .uProd then (1e-4 : ℝ) else 0) ≤ (st.mem g.arr).get i ∧ (st.mem g.arr).get i ≤ 1) :
    ∃ b, beginGap env numBands junk st = some (.ok b) ∧ GoodStart env (offset env.grids + 2) b := by
  have hl : lowest env.grids = (if ∃ g ∈ env.grids, g.kind = .uProd then (1e-4 : ℝ) else 0) := by
    unfold lowest haveUprod
    simp
  rw [← hl] at hu
  have hs : Setup env (offset env.grids + 2) := ⟨rfl, hd⟩
  obtain ⟨u, g1, g2, -, g4⟩ := get_spec st.mem env.grids 0 ⟨offset env.grids + 2, junk⟩ (by simp) ha
  simp only at g2
  have hH : Holds u env.grids st.mem := by
    intro pre g post hg i hi
    have := g4 pre g post hg i hi
    rw [← this]
    simp
  have hI : Inv env u { st with iter := 0, unsolved := true } := ⟨ha, by show Holds u env.grids st.eps; rw [he]; exact hH, fun h => by simp at h⟩
  obtain ⟨s, st', hi, lo, e, I', hsol, hhi, -, hlo⟩ := scan_spec hs g2 hI env.ks.length le_rfl
  obtain ⟨l, rfl, hlo'⟩ := hlo hk
  set n := offset env.grids + 2 with hn
  set u' : Arr := ⟨n, fun i => if i = n - 1 then hi * 1.001 else if i = n - 2 then l / 1.001 else
    if u.get i < lowest env.grids then lowest env.grids else u.get i⟩ with hu'
  have hbnd : ∀ i < offset env.grids, lowest env.grids ≤ u.get i ∧ u.get i ≤ 1 := by
    intro i hi
    obtain ⟨pre, g, post, j, h1, h2, rfl⟩ := offset_get hi
    rw [← hH pre g post h1 j h2]
    exact hu g (by rw [h1]; simp) j h2
  have hsame : ∀ i < offset env.grids, u'.get i = u.get i := by
    intro i hi
    simp only [hu']
    rw [if_neg (by omega), if_neg (by omega), if_neg (not_lt.2 (hbnd i hi).1)]
  have hHu : ∀ U, Holds u' env.grids U → Holds u env.grids U := by
    intro U h pre g post hg i hi
    rw [h pre g post hg i hi]
    apply hsame
    rw [hg, offset_append, offset_cons]
    unfold MGrid.ntot
    omega
  have hhi0 : 0 ≤ hi := hhi.2 (Or.inl rfl)
  have hl0 : 0 ≤ l := by
    obtain ⟨i, -, hl⟩ := hlo'.1
    rw [hl]
    exact hpos _ _
  refine ⟨⟨u', fun i => if i = n - 1 ∨ i = n - 2 then 0 else lowest env.grids, fun i => if i = n - 1 ∨ i = n - 2 then none else some 1, st'⟩, ?_, ?_⟩
  · unfold beginGap
    rw [if_neg (by simpa using hb)]
    simp only [ntotAll_eq, ← hn, g1, e, Option.bind_eq_bind, Option.bind_some]
    rfl
  · refine ⟨rfl, fun i hin => ?_, fun i hin B hB => ?_, fun mid hmid ik hik kind => ?_⟩
    · by_cases h1 : i = n - 1
      · simp only [hu', h1, true_or, if_true]
        positivity
      · by_cases h2 : i = n - 2
        · simp only [hu', h2, or_true, if_true]
          rw [if_neg (by omega)]
          positivity
        · simp only [h1, h2, or_false, if_false]
          rw [hsame i (by omega)]
          exact (hbnd i (by omega)).1
    · by_cases h : i = n - 1 ∨ i = n - 2
      · simp only [if_pos h] at hB
        cases hB
      · simp only [if_neg h, Option.some.injEq] at hB
        rw [← hB, hsame i (by omega)]
        exact (hbnd i (by omega)).2
    · obtain ⟨os, st1, val, gr, st2, t, c1, c2, c3, c4, c5, -⟩ := C53_constraints hs st' I'.alloc u' rfl mid hmid u' rfl none ik hik kind
      refine ⟨os, st1, val, gr, st2, c1, c2, ?_⟩
      obtain ⟨q1, q2⟩ := hsol ik hik hik
      have hf : ∀ b, env.freq t b = env.freq (s ik) b := hr u t (s ik) (hHu _ c3) q1 (by rw [c4, q2])
      rw [c5]
      cases kind
      · have h1 : env.freq (s ik) env.b1 ≤ hi := hhi.2 (Or.inr ⟨ik, hik, rfl⟩)
        simp only [constraintValue, hu', if_true, hf]
        norm_num
        nlinarith
      · have h1 : l ≤ env.freq (s ik) env.b2 := hlo'.2 ⟨ik, hik, rfl⟩
        simp only [constraintValue, hu', hf]
        rw [if_neg (by omega)]
        simp only [if_true]
        rw [sub_nonpos, div_le_iff₀ (by norm_num)]
        have := hpos (s ik) env.b2
        norm_num
        nlinarith

/-- The band numbers are checked: `material-grids-maxgap` rejects all numbers but 1 to num-bands. -/
theorem C90_bands (env : Env P) (numBands : ℕ) (junk : ℕ → ℝ) (st : St P)
    (hb : ¬ (env.b1 ∈ Set.Icc 1 numBands ∧ env.b2 ∈ Set.Icc 1 numBands)) : beginGap env numBands junk st = some (.error ()) := by
  unfold beginGap
  rw [if_pos]
  intro h
  exact hb ⟨⟨h.1, h.2.1⟩, ⟨h.2.2.1, h.2.2.2⟩⟩

/-- The check of `material-grids-min-tetm-gap` is not enough: it accepts band numbers below 1, for which the frequencies are read outside their
list (mpb/material_grid_opt.c:98). -/
theorem C90_tetm_band_refuted (numBands : ℕ) (freqs : List ℝ) (band : ℤ) (h : band < 1) : tetmBand numBands freqs band = none := by
  unfold tetmBand freqItem
  rw [if_neg (by push Not; omega), if_neg (by omega)]
  rfl

/-- Numbers that are accepted are in the list. -/
theorem C90_tetm_band_partial (freqs : List ℝ) (band : ℤ) (h : 1 ≤ band) : tetmBand freqs.length freqs band ≠ none := by
  unfold tetmBand freqItem
  by_cases hb : band ≤ freqs.length
  · rw [if_neg (by simpa using hb), if_pos (by omega), List.getElem?_eq_getElem (by omega)]
    simp
  · rw [if_pos hb]
    simp

/-- A grid with one number; the first two frequencies are 1 and 2 plus 10000 times this number. -/
noncomputable def one (k : Kind) : Env 1 :=
  ⟨[⟨k, 1, 12, 1, 1, 1, 1, 1, 0⟩], [⟨0, 0, 0⟩], 1, 2, false, fun s b => b + 10000 * (s.eps 0).get 0, fun _ _ _ _ => 0⟩

/-- The grid holds `x`, the dielectric function is that for the number `y`. -/
noncomputable def holding (x y : ℝ) : St 1 :=
  ⟨fun _ => ⟨1, fun _ => x⟩, fun _ => ⟨1, fun _ => y⟩, ⟨0, 0, 0⟩, none, 0, 0, 0, true, fun _ => 0, fun _ => 0, fun _ _ => 0⟩

theorem one_begin (k : Kind) (x y : ℝ) (hy : 0 ≤ y) (junk : ℕ → ℝ) : ∃ b, beginGap (one k) 2 junk (holding x y) = some (.ok b) ∧
    b.u.get 0 = (if x < (if k = .uProd then 1e-4 else 0) then (if k = .uProd then 1e-4 else 0) else x) ∧ b.u.get 2 = (1 + 10000 * y) * 1.001 ∧
      b.ub 0 = some 1 := by
  have h1 : ntotAll (one k).grids + 2 = 3 := by simp [ntotAll, one, MGrid.ntot]
  have hl : lowest (one k).grids = if k = .uProd then 1e-4 else 0 := by simp [lowest, haveUprod, one]
  have hg : materialGridsGet (holding x y).mem (one k).grids 0 ⟨3, junk⟩ = some ⟨3, fun i => if i = 0 then x else junk i⟩ := by
    simp [materialGridsGet, one, getOne, holding, MGrid.ntot]
  have hf : (0 : ℝ) < 1 + 10000 * y := by linarith
  unfold beginGap
  rw [if_neg (by simp [one])]
  simp only [h1, hg, hl, Option.bind_eq_bind, Option.bind_some]
  have hsc : ∃ st', (List.range (one k).ks.length).foldlM (scanK (one k) 3 ⟨3, fun i => if i = 0 then x else junk i⟩)
      ({ holding x y with iter := 0, unsolved := true }, ((0 : ℝ), none)) = some (st', (1 + 10000 * y, some (2 + 10000 * y))) := by
    have hr : List.range (one k).ks.length = [0] := rfl
    rw [hr]
    simp [scanK, scanOne, bandConstraint, one, constraintSolve, solve, holding, Arr.read, constraintVal, updateGap, hf]
  obtain ⟨st', hsc⟩ := hsc
  rw [hsc]
  exact ⟨_, rfl, by simp, by simp, by simp⟩

/-- C90 fails if a grid holds a number above 1 (only the lower bound is enforced, mpb/material_grid_opt.c:305-311). -/
theorem C90_above_refuted (k : Kind) (x : ℝ) (hx : 1 < x) (junk : ℕ → ℝ) : ∃ b, beginGap (one k) 2 junk (holding x x) = some (.ok b) ∧
    ¬ GoodStart (one k) 3 b := by
  obtain ⟨b, h1, h2, -, h4⟩ := one_begin k x x (by linarith) junk
  refine ⟨b, h1, fun h => ?_⟩
  have := h.upper 0 (by norm_num) 1 h4
  rw [h2, if_neg] at this
  · linarith
  · split_ifs
    · norm_num
      linarith
    · linarith

/-- The value of the first constraint at the starting point. -/
theorem one_constraint (k : Kind) (b : Begin 1) (h : GoodStart (one k) 3 b) : 1 + 10000 * b.u.get 0 - b.u.get 2 ≤ 0 := by
  have hs : Setup (one k) 3 := ⟨by simp [one, offset], by simp [one, DistinctArrays]⟩
  obtain ⟨os, st1, val, gr, st2, c1, c2, c3⟩ := h.feasible [] (by simp) 0 (by simp [one]) .band1
  have ha : Allocated b.st.mem (one k).grids := by
    by_contra hna
    have : run (one k) 3 b.st [.objective b.u] = none := by
      have hlen : (b.st.mem 0).len < 1 := by
        simp only [Allocated, one, List.mem_singleton, forall_eq] at hna
        omega
      simp only [run, step, maxgapFunc, setGrids]
      have hl := h.len
      have r1 : b.u.read (((3 : ℕ) : ℤ) - 1) = some (b.u.get 2) := by unfold Arr.read; rw [hl]; norm_num; rfl
      have r2 : b.u.read (((3 : ℕ) : ℤ) - 2) = some (b.u.get 1) := by unfold Arr.read; rw [hl]; norm_num <;> rfl
      have hset : materialGridsSet b.u (one k).grids 0 b.st.mem = none := by
        simp [materialGridsSet, one, setOne, MGrid.ntot]
        omega
      simp [r1, r2, hset]
    rw [this] at c1
    cases c1
  obtain ⟨os', st1', val', gr', st2', s, d1, d2, d3, d4, d5, -⟩ := C53_constraints hs b.st ha b.u h.len [] (by simp) b.u h.len none 0 (by simp [one]) .band1
  rw [d1] at c1
  cases c1
  rw [d2] at c2
  cases c2
  rw [d5] at c3
  have := d3 [] _ [] rfl 0 (by norm_num)
  simp only [constraintValue, one] at c3 this
  rw [this] at c3
  simpa [offset] using c3

/-- C90 fails for a grid of the kind U_PROD that holds 0: the number is raised to 1e-4 after the frequencies were computed, so that the
constraints are those of another structure. -/
theorem C90_uprod_refuted (junk : ℕ → ℝ) : ∃ b, beginGap (one .uProd) 2 junk (holding 0 0) = some (.ok b) ∧ ¬ GoodStart (one .uProd) 3 b := by
  obtain ⟨b, h1, h2, h3, -⟩ := one_begin .uProd 0 0 le_rfl junk
  refine ⟨b, h1, fun h => ?_⟩
  have := one_constraint .uProd b h
  rw [h2, h3] at this
  norm_num at this

/-- C90 fails if the grids were changed since the dielectric function was computed (for example by `randomize-material-grid!`): the bands of the
old structure are used, mpb/material_grid_opt.c:286-301, before the first call of `material_grids_set` and `reset_epsilon`. -/
theorem C90_stale_refuted (junk : ℕ → ℝ) : ∃ b, beginGap (one .uMin) 2 junk (holding 1 0) = some (.ok b) ∧ ¬ GoodStart (one .uMin) 3 b := by
  obtain ⟨b, h1, h2, h3, -⟩ := one_begin .uMin 1 0 le_rfl junk
  refine ⟨b, h1, fun h => ?_⟩
  have := one_constraint .uMin b h
  rw [h2, h3] at this
  norm_num [show Kind.uMin ≠ Kind.uProd by decide] at this

/-- Non-vacuity of `C90_start_partial`: the grid is of the kind U_PROD and holds 1/2. -/
example : ∃ b, beginGap { one .uProd with freq := fun s b => b + |(s.eps 0).get 0| } 2 (fun _ => 0) (holding (1 / 2) (1 / 2)) = some (.ok b) ∧
    GoodStart { one .uProd with freq := fun s b => b + |(s.eps 0).get 0| } 3 b := by
  refine C90_start_partial { one .uProd with freq := fun s b => b + |(s.eps 0).get 0| } 2 (by simp [one]) (by simp [one, DistinctArrays])
    (by simp [one]) _ _ ?_ rfl ?_ (fun s b => by positivity) ?_
  · intro g hg
    simp only [one, List.mem_singleton] at hg
    subst hg
    simp [holding]
  · intro u s s' h1 h2 hk b
    have e1 := h1 [] _ [] rfl 0 (by norm_num)
    have e2 := h2 [] _ [] rfl 0 (by norm_num)
    simp only at e1 e2 ⊢
    rw [e1, e2]
  · intro g hg i hi
    simp only [one, List.mem_singleton] at hg
    subst hg
    simp [one, holding]
    norm_num

end Mpb.MatOpt

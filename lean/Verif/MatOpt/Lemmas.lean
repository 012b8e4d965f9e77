import Verif.MatOpt.Model
import Verif.MatGrid.ListProps

/-! # Lemmas on the optimisation functions -/

namespace Mpb.MatOpt

open MatGrid MatGrid.Spec

variable {P : ℕ}

/-- Specification: the material grids hold the degrees of freedom `u`: entry `i` of a grid is number `offset + i` of `u`. -/
def Spec.Holds (u : Arr) (gs : List MGrid) (U : Mem) : Prop :=
  ∀ pre g post, gs = pre ++ g :: post → ∀ i < g.nx * g.ny * g.nz, (U g.arr).get i = u.get (offset pre + i)

/-- Specification: the problem is set up as `material_grids_maxmin_gap` does: `n` is the number of grid values plus 2, no two grids
share an array. -/
structure Spec.Setup (env : Env P) (n : ℕ) : Prop where
  n : n = offset env.grids + 2
  distinct : DistinctArrays env.grids

/-- Specification: calls with arrays of the right length and a constraint that exists. -/
def Spec.OpOk (env : Env P) (n : ℕ) : Op → Prop
  | .objective u => u.len = n
  | .constraint u _ ik _ => u.len = n ∧ ik < env.ks.length

/-- Specification: the call evaluates a constraint. -/
def Spec.IsConstraint : Op → Prop
  | .objective _ => False
  | .constraint _ _ _ _ => True

open Spec

theorem read_last {u : Arr} {n : ℕ} (hu : u.len = n) (hn : 2 ≤ n) (j : ℕ) (hj : 1 ≤ j ∧ j ≤ 2) : u.read ((n : ℤ) - j) = some (u.get (n - j)) := by
  unfold Arr.read
  rw [if_pos (by omega)]
  congr 2
  omega

theorem setGrids_spec {env : Env P} {n : ℕ} (hs : Setup env n) {u : Arr} (hu : offset env.grids ≤ u.len) (st : St P)
    (ha : Allocated st.mem env.grids) :
    ∃ m, setGrids env u st = some { st with mem := m, eps := m } ∧ Allocated m env.grids ∧ Holds u env.grids m := by
  obtain ⟨m, h1, h2, -, h4⟩ := set_spec u env.grids 0 st.mem (by omega) ha
  refine ⟨m, by unfold setGrids; rw [h1]; rfl, fun g hg => by rw [h2]; exact ha g hg, fun pre g post he i hi => ?_⟩
  rw [(h4 hs.distinct pre g post he).1 i hi]
  simp

theorem maxgapFunc_spec {env : Env P} {n : ℕ} (hs : Setup env n) {u : Arr} (hu : u.len = n) (st : St P) (ha : Allocated st.mem env.grids) :
    ∃ m, maxgapFunc env n u st = some (if env.doMin then gapOf (u.get (n - 1)) (u.get (n - 2)) else -gapOf (u.get (n - 1)) (u.get (n - 2)),
      gapGrad n env.doMin (u.get (n - 1)) (u.get (n - 2)), { st with mem := m, eps := m, iter := st.iter + 1, unsolved := true }) ∧
      Allocated m env.grids ∧ Holds u env.grids m := by
  have hn := hs.n
  obtain ⟨m, h1, h2, h3⟩ := setGrids_spec hs (u := u) (by omega) st ha
  refine ⟨m, ?_, h2, h3⟩
  unfold maxgapFunc
  have r1 := read_last hu (by omega) 1 (by omega)
  have r2 := read_last hu (by omega) 2 (by omega)
  push_cast at r1 r2
  rw [r1, r2, h1]
  rfl

/-- The invariant between an evaluation of the objective at `u0` and the next one. -/
structure Inv (env : Env P) (u0 : Arr) (st : St P) : Prop where
  alloc : Allocated st.mem env.grids
  holds : Holds u0 env.grids st.eps
  solved : st.unsolved = false → ∃ s, st.sol = some s ∧ s.eps = st.eps ∧ s.k = st.curK

theorem constraintSolve_spec {env : Env P} {u0 : Arr} {st : St P} (h : Inv env u0 st) (k : V3 ℝ) :
    ∃ s, (constraintSolve k st).sol = some s ∧ s.eps = st.eps ∧ s.k = k ∧ (constraintSolve k st).mem = st.mem ∧
      (constraintSolve k st).eps = st.eps ∧ (constraintSolve k st).curK = k ∧ (constraintSolve k st).unsolved = false := by
  by_cases hc : st.curK ≠ k ∨ st.unsolved = true
  · have e : constraintSolve k st = { solve k st with unsolved := false } := by
      unfold constraintSolve
      rw [if_pos hc]
    rw [e]
    exact ⟨_, rfl, rfl, rfl, rfl, rfl, rfl, rfl⟩
  · have e : constraintSolve k st = { st with unsolved := false } := by
      unfold constraintSolve
      rw [if_neg hc]
    rw [e]
    push Not at hc
    obtain ⟨s, e1, e2, e3⟩ := h.solved (by simpa using hc.2)
    exact ⟨s, e1, e2, by rw [e3]; exact hc.1, rfl, rfl, hc.1, rfl⟩

/-- The gradient that a constraint should have: the derivatives of the frequency, with the sign of the constraint, and those with respect
to the bounds. -/
noncomputable def Spec.constraintGradient (env : Env P) (n : ℕ) (kind : BKind) (s : Sol) (i : ℕ) : ℝ :=
  match kind with
  | .band1 => if i + 2 < n then ∑ p, env.dfreq s env.b1 p i else if i + 2 = n then 0 else -1
  | .band2 => if i + 2 < n then -∑ p, env.dfreq s env.b2 p i else if i + 2 = n then 1 else 0

/-- The value that a constraint should have. -/
noncomputable def Spec.constraintValue (env : Env P) (n : ℕ) (kind : BKind) (s : Sol) (u : Arr) : ℝ :=
  match kind with
  | .band1 => env.freq s env.b1 - u.get (n - 1)
  | .band2 => u.get (n - 2) - env.freq s env.b2

theorem constraintGrad_spec {env : Env P} {n : ℕ} (hs : Setup env n) (kind : BKind) (s : Sol) (g : ℕ → ℝ) (st : St P) :
    ∃ g' w, constraintGrad env n kind s g st = some (g', { st with work := w }) ∧ ∀ i < n, g' i = constraintGradient env n kind s i := by
  have hn := hs.n
  have hnt : ntotAll env.grids = offset env.grids := C51_total env.grids
  unfold constraintGrad clearWork
  rw [if_neg (by omega)]
  cases kind
  · refine ⟨_, _, rfl, ?_⟩
    intro i hi
    simp only [allreduce, addGradient, constraintGradient]
    by_cases h1 : i < n - 2
    · rw [if_pos h1, if_pos (by omega)]
      apply Finset.sum_congr rfl
      intro p _
      rw [if_pos (by omega), if_pos (by omega)]
      ring
    · rw [if_neg h1, if_neg (by omega)]
      by_cases h2 : i + 2 = n
      · rw [if_pos h2, show i = n - 2 by omega, Function.update_self]
      · rw [if_neg h2, Function.update_of_ne (by omega), show i = n - 1 by omega, Function.update_self]
  · refine ⟨_, _, rfl, ?_⟩
    intro i hi
    simp only [allreduce, addGradient, constraintGradient]
    by_cases h1 : i < n - 2
    · rw [if_pos h1, if_pos (by omega), ← Finset.sum_neg_distrib]
      apply Finset.sum_congr rfl
      intro p _
      rw [if_pos (by omega), if_pos (by omega)]
      ring
    · rw [if_neg h1, if_neg (by omega)]
      by_cases h2 : i + 2 = n
      · rw [if_pos h2, show i = n - 2 by omega, Function.update_self]
      · rw [if_neg h2, Function.update_of_ne (by omega), show i = n - 1 by omega, Function.update_self]

theorem bandConstraint_spec {env : Env P} {n : ℕ} (hs : Setup env n) {u0 : Arr} {st : St P} (h : Inv env u0 st) {u : Arr} (hu : u.len = n)
    (grad : Option (ℕ → ℝ)) {ik : ℕ} (hk : ik < env.ks.length) (kind : BKind) :
    ∃ s g' st', bandConstraint env n u grad ik kind st = some (constraintValue env n kind s u, g', st') ∧ Inv env u0 st' ∧
      s.eps = st.eps ∧ st'.eps = st.eps ∧ s.k = env.ks[ik] ∧ st'.sol = some s ∧ st'.curK = s.k ∧ st'.unsolved = false ∧
      (kind = .band1 → st'.f1s ik = env.freq s env.b1) ∧ (kind = .band2 → st'.f2s ik = env.freq s env.b2) ∧
      (grad = none → g' = none) ∧ (∀ g, grad = some g → ∃ gr, g' = some gr ∧ ∀ i < n, gr i = constraintGradient env n kind s i) := by
  have hn := hs.n
  obtain ⟨s, e1, e2, e3, e4, e5, e6, e7⟩ := constraintSolve_spec h env.ks[ik]
  have r1 := read_last hu (by omega) 1 (by omega)
  have r2 := read_last hu (by omega) 2 (by omega)
  push_cast at r1 r2
  have hk' : env.ks[ik]? = some env.ks[ik] := List.getElem?_eq_getElem hk
  generalize hst : constraintSolve env.ks[ik] st = st1 at e1 e4 e5 e6 e7
  have hinv : ∀ (w : Fin P → ℕ → ℝ) (f1 f2 : ℕ → ℝ), Inv env u0 { st1 with work := w, f1s := f1, f2s := f2 } := fun w f1 f2 =>
    ⟨by show Allocated st1.mem _; rw [e4]; exact h.alloc, by show Holds _ _ st1.eps; rw [e5]; exact h.holds,
      fun _ => ⟨s, e1, by show s.eps = st1.eps; rw [e2, e5], by show s.k = st1.curK; rw [e3, e6]⟩⟩
  obtain ⟨a1, a2, a3, a4, a5, a6, a7, a8, a9, a10, a11⟩ := st1
  simp only at e1 e4 e5 e6 e7
  subst e1
  cases grad with
  | none =>
    cases kind
    · refine ⟨s, none, { mem := a1, eps := a2, curK := a3, sol := some s, runs := a5, parity := a6, iter := a7, unsolved := a8, f1s := Function.update a9 ik (env.freq s env.b1), f2s := a10, work := a11 }, ?_, hinv _ _ _, e2, e5, e3, rfl, by rw [e3]; exact e6, e7,
        fun _ => by simp, fun h => (by cases h), fun _ => rfl, fun g h => (by cases h)⟩
      unfold bandConstraint
      simp only [hk', Option.bind_eq_bind, Option.bind_some, hst, r1, r2]
      rfl
    · refine ⟨s, none, { mem := a1, eps := a2, curK := a3, sol := some s, runs := a5, parity := a6, iter := a7, unsolved := a8, f1s := a9, f2s := Function.update a10 ik (env.freq s env.b2), work := a11 }, ?_, hinv _ _ _, e2, e5, e3, rfl, by rw [e3]; exact e6, e7,
        fun h => (by cases h), fun _ => by simp, fun _ => rfl, fun g h => (by cases h)⟩
      unfold bandConstraint
      simp only [hk', Option.bind_eq_bind, Option.bind_some, hst, r1, r2]
      rfl
  | some g =>
    obtain ⟨g', w, c1, c2⟩ := constraintGrad_spec hs kind s g ⟨a1, a2, a3, some s, a5, a6, a7, a8, a9, a10, a11⟩
    cases kind
    · refine ⟨s, some g', { mem := a1, eps := a2, curK := a3, sol := some s, runs := a5, parity := a6, iter := a7, unsolved := a8, f1s := Function.update a9 ik (env.freq s env.b1), f2s := a10, work := w }, ?_, hinv _ _ _, e2, e5, e3, rfl,
        by rw [e3]; exact e6, e7, fun _ => by simp, fun h => (by cases h), fun h => (by cases h), fun _ _ => ⟨g', rfl, c2⟩⟩
      unfold bandConstraint
      simp only [hk', Option.bind_eq_bind, Option.bind_some, hst, r1, r2, c1, Option.map_some]
      rfl
    · refine ⟨s, some g', { mem := a1, eps := a2, curK := a3, sol := some s, runs := a5, parity := a6, iter := a7, unsolved := a8, f1s := a9, f2s := Function.update a10 ik (env.freq s env.b2), work := w }, ?_, hinv _ _ _, e2, e5, e3, rfl,
        by rw [e3]; exact e6, e7, fun h => (by cases h), fun _ => by simp, fun h => (by cases h), fun _ _ => ⟨g', rfl, c2⟩⟩
      unfold bandConstraint
      simp only [hk', Option.bind_eq_bind, Option.bind_some, hst, r1, r2, c1, Option.map_some]
      rfl

end Mpb.MatOpt

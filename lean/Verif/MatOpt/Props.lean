import Verif.MatOpt.Lemmas
import Verif.MatGrid.ToolsProps
import Mathlib.Analysis.Calculus.Deriv.Inv
import Mathlib.Analysis.Calculus.Deriv.Add
import Mathlib.Order.Bounds.Basic
import Mathlib.Tactic.FieldSimp

/-! # Properties of the optimisation of material grids (C52, C53, C73) -/

namespace Mpb.MatOpt

open MatGrid MatGrid.Spec Spec

variable {P : ℕ}

/-! ## C53 -/

/-- Constraints keep the invariant. -/
theorem run_constraints {env : Env P} {n : ℕ} (hs : Setup env n) {u0 : Arr} : ∀ (ops : List Op) (st : St P), Inv env u0 st →
    (∀ op ∈ ops, OpOk env n op ∧ IsConstraint op) → ∃ os st', run env n st ops = some (os, st') ∧ Inv env u0 st' := by
  intro ops
  induction ops with
  | nil => intro st h _; exact ⟨[], st, rfl, h⟩
  | cons op ops ih =>
    intro st h hops
    have h1 := hops op (by simp)
    cases op with
    | objective u => exact absurd h1.2 (by simp [IsConstraint])
    | constraint u grad ik kind =>
      obtain ⟨s, g', st', e, hi, -⟩ := bandConstraint_spec hs h h1.1.1 grad h1.1.2 kind
      obtain ⟨os, st2, e2, hi2⟩ := ih st' hi (fun o ho => hops o (by simp [ho]))
      refine ⟨(constraintValue env n kind s u, g') :: os, st2, ?_, hi2⟩
      rw [run]
      simp only [step, e, Option.map_some, Option.bind_eq_bind, Option.bind_some, e2]
      rfl

/-- C53: in whatever state `st` the program is, after an evaluation of the objective at `u0` and any number of constraint evaluations, a constraint evaluation at `u` ends, and its value and gradient are those
computed from a run `s` of the solver, at the constraint's k-point, for the dielectric function of the material grids set to `u0`. -/
theorem C53_constraints {env : Env P} {n : ℕ} (hs : Setup env n) (st : St P) (ha : Allocated st.mem env.grids) (u0 : Arr) (hu0 : u0.len = n)
    (mid : List Op) (hmid : ∀ op ∈ mid, OpOk env n op ∧ IsConstraint op) (u : Arr) (hu : u.len = n) (grad : Option (ℕ → ℝ)) (ik : ℕ)
    (hk : ik < env.ks.length) (kind : BKind) :
    ∃ os st1 val gr st2 s, run env n st (.objective u0 :: mid) = some (os, st1) ∧
      step env n st1 (.constraint u grad ik kind) = some ((val, gr), st2) ∧
      Holds u0 env.grids s.eps ∧ s.k = env.ks[ik] ∧
      val = constraintValue env n kind s u ∧
      (∀ g0, grad = some g0 → ∃ g, gr = some g ∧ ∀ i < n, g i = constraintGradient env n kind s i) := by
  obtain ⟨m, e1, h1, h2⟩ := maxgapFunc_spec hs hu0 st ha
  have hinv : Inv env u0 { st with mem := m, eps := m, iter := st.iter + 1, unsolved := true } := ⟨h1, h2, fun h => by simp at h⟩
  obtain ⟨os, st1, e2, hi⟩ := run_constraints hs mid _ hinv hmid
  obtain ⟨s, g', st', e3, -, hse, -, hsk, -, -, -, -, -, -, hg⟩ := bandConstraint_spec hs hi hu grad hk kind
  refine ⟨(if env.doMin then gapOf (u0.get (n - 1)) (u0.get (n - 2)) else -gapOf (u0.get (n - 1)) (u0.get (n - 2)),
      some (gapGrad n env.doMin (u0.get (n - 1)) (u0.get (n - 2)))) :: os, st1, constraintValue env n kind s u, g', st', s, ?_, ?_,
    by rw [hse]; exact hi.holds, hsk, rfl, hg⟩
  · rw [run]
    simp only [step, e1, Option.map_some, Option.bind_eq_bind, Option.bind_some, e2]
    rfl
  · simp only [step, e3, Option.map_some]

/-- C53: the calls of an optimiser that begins with the objective never fail, and leave the arrays allocated, so that
`C53_constraints` applies after any such sequence of calls. -/
theorem C53_total {env : Env P} {n : ℕ} (hs : Setup env n) (st : St P) (ha : Allocated st.mem env.grids) (u0 : Arr) (hu0 : u0.len = n)
    (ops : List Op) (hops : ∀ op ∈ ops, OpOk env n op) :
    ∃ os st1, run env n st (.objective u0 :: ops) = some (os, st1) ∧ Allocated st1.mem env.grids := by
  suffices h : ∀ (ops : List Op) (st : St P) (u0 : Arr), Inv env u0 st → (∀ op ∈ ops, OpOk env n op) →
      ∃ os st1, run env n st ops = some (os, st1) ∧ Allocated st1.mem env.grids by
    obtain ⟨m, e1, h1, h2⟩ := maxgapFunc_spec hs hu0 st ha
    obtain ⟨os, st1, e2, hi⟩ := h ops { st with mem := m, eps := m, iter := st.iter + 1, unsolved := true } u0
      ⟨h1, h2, fun h => by simp at h⟩ hops
    refine ⟨(if env.doMin then gapOf (u0.get (n - 1)) (u0.get (n - 2)) else -gapOf (u0.get (n - 1)) (u0.get (n - 2)),
      some (gapGrad n env.doMin (u0.get (n - 1)) (u0.get (n - 2)))) :: os, st1, ?_, hi⟩
    rw [run]
    simp only [step, e1, Option.map_some, Option.bind_eq_bind, Option.bind_some, e2]
    rfl
  clear hops ops
  intro ops
  induction ops with
  | nil => intro st u0 h _; exact ⟨[], st, rfl, h.alloc⟩
  | cons op ops ih =>
    intro st u0 h hops
    have h1 := hops op (by simp)
    cases op with
    | objective u =>
      obtain ⟨m, e1, h1, h2⟩ := maxgapFunc_spec hs h1 st h.alloc
      obtain ⟨os, st1, e2, hi⟩ := ih { st with mem := m, eps := m, iter := st.iter + 1, unsolved := true } u
        ⟨h1, h2, fun h => by simp at h⟩ (fun o ho => hops o (by simp [ho]))
      refine ⟨(if env.doMin then gapOf (u.get (n - 1)) (u.get (n - 2)) else -gapOf (u.get (n - 1)) (u.get (n - 2)),
        some (gapGrad n env.doMin (u.get (n - 1)) (u.get (n - 2)))) :: os, st1, ?_, hi⟩
      rw [run]
      simp only [step, e1, Option.map_some, Option.bind_eq_bind, Option.bind_some, e2]
      rfl
    | constraint u grad ik kind =>
      obtain ⟨s, g', st', e, hi, -⟩ := bandConstraint_spec hs h h1.1 grad h1.2 kind
      obtain ⟨os, st2, e2, hi2⟩ := ih st' u0 hi (fun o ho => hops o (by simp [ho]))
      refine ⟨(constraintValue env n kind s u, g') :: os, st2, ?_, hi2⟩
      rw [run]
      simp only [step, e, Option.map_some, Option.bind_eq_bind, Option.bind_some, e2]
      rfl

/-! ## The result -/

theorem scanK_spec {env : Env P} {n : ℕ} (hs : Setup env n) {u : Arr} (hu : u.len = n) {st : St P} (h : Inv env u st) {ik : ℕ}
    (hk : ik < env.ks.length) (g : ℝ × Option ℝ) :
    ∃ s st', scanK env n u (st, g) ik = some (st', (max g.1 (env.freq s env.b1),
        some (match g.2 with | none => env.freq s env.b2 | some lo => min lo (env.freq s env.b2)))) ∧
      Inv env u st' ∧ Holds u env.grids s.eps ∧ s.k = env.ks[ik] := by
  obtain ⟨s, g1, st1, e1, i1, a1, a2, a3, a4, a5, a6, a7, -⟩ := bandConstraint_spec hs h hu none hk .band1
  obtain ⟨s', g2, st2, e2, i2, b1, b2, b3, b4, b5, b6, -, b7, -⟩ := bandConstraint_spec hs i1 hu none hk .band2
  have hss : s' = s := by
    -- the second call finds the k-point solved
    have hc : constraintSolve env.ks[ik] st1 = st1 := by
      unfold constraintSolve
      have : ¬ (st1.curK ≠ env.ks[ik] ∨ st1.unsolved = true) := by
        rw [a5, a3, a6]
        simp
      rw [if_neg this]
      obtain ⟨c1, c2, c3, c4, c5, c6, c7, c8, c9, c10, c11⟩ := st1
      simp only at a6
      subst a6
      rfl
    unfold bandConstraint at e2
    have hn := hs.n
    have r1 := read_last hu (by omega) 1 (by omega)
    have r2 := read_last hu (by omega) 2 (by omega)
    push_cast at r1 r2
    simp only [List.getElem?_eq_getElem hk, Option.bind_eq_bind, Option.bind_some, hc, a4, r1, r2] at e2
    have e2 := Option.some.inj e2
    have e3 : st2.sol = some s := by
      have e4 : (constraintVal env BKind.band2 ik (u.get (n - 2)) (u.get (n - 1)) s st1).2 = st2 := congrArg (fun r => r.2.2) e2
      rw [← e4]
      exact a4
    rw [b4] at e3
    exact Option.some.inj e3
  subst hss
  refine ⟨s', st2, ?_, i2, by rw [a1]; exact h.holds, a3⟩
  unfold scanK scanOne
  simp only [e1, e2, Option.bind_eq_bind, Option.bind_some, pure]
  congr 2
  unfold updateGap
  rw [a7 rfl, b7 rfl]
  obtain ⟨hi, lo⟩ := g
  simp only
  have m1 : (if env.freq s' env.b1 > hi then ((env.freq s' env.b1, lo) : ℝ × Option ℝ) else (hi, lo)) = (max hi (env.freq s' env.b1), lo) := by
    split_ifs with hh
    · rw [max_eq_right hh.le]
    · rw [max_eq_left (not_lt.1 hh)]
  rw [m1]
  cases lo with
  | none => rfl
  | some lo =>
    simp only
    split_ifs with hh
    · rw [min_eq_right hh.le]
    · rw [min_eq_left (not_lt.1 hh)]

/-- The loop over the first `m` k-points. -/
theorem scan_spec {env : Env P} {n : ℕ} (hs : Setup env n) {u : Arr} (hu : u.len = n) {st : St P} (h : Inv env u st) :
    ∀ m, m ≤ env.ks.length → ∃ (s : ℕ → Sol) (st' : St P) (hi : ℝ) (lo : Option ℝ),
      (List.range m).foldlM (scanK env n u) (st, (0, none)) = some (st', (hi, lo)) ∧ Inv env u st' ∧
      (∀ i (h : i < m) (h' : i < env.ks.length), Holds u env.grids (s i).eps ∧ (s i).k = env.ks[i]) ∧
      IsGreatest ({0} ∪ {f | ∃ i < m, f = env.freq (s i) env.b1}) hi ∧
      (m = 0 → lo = none) ∧ (0 < m → ∃ l, lo = some l ∧ IsLeast {f | ∃ i < m, f = env.freq (s i) env.b2} l) := by
  intro m
  induction m with
  | zero =>
    intro _
    refine ⟨fun _ => ⟨st.eps, st.curK, 0, 0⟩, st, 0, none, rfl, h, fun i hi => by omega, ⟨by simp, ?_⟩, fun _ => rfl, fun h => by omega⟩
    rintro f (hf | ⟨i, hi, -⟩)
    · exact le_of_eq hf
    · omega
  | succ m ih =>
    intro hm
    obtain ⟨s, st1, hi, lo, e1, i1, h1, ⟨g1, g2⟩, l1, l2⟩ := ih (by omega)
    obtain ⟨t, st2, e2, i2, t1, t2⟩ := scanK_spec hs hu i1 (show m < env.ks.length by omega) (hi, lo)
    generalize hL : (match lo with | none => env.freq t env.b2 | some lo => min lo (env.freq t env.b2)) = L at e2
    refine ⟨Function.update s m t, st2, max hi (env.freq t env.b1), some L, ?_, i2, ?_, ⟨?_, ?_⟩, fun h => by omega,
      fun _ => ⟨L, rfl, ?_, ?_⟩⟩
    · rw [List.range_succ, List.foldlM_append, e1]
      simp only [Option.bind_eq_bind, Option.bind_some, List.foldlM_cons, List.foldlM_nil, e2]
      rfl
    · intro i h h'
      by_cases he : i = m
      · subst he
        rw [Function.update_self]
        exact ⟨t1, t2⟩
      · rw [Function.update_of_ne he]
        exact h1 i (by omega) h'
    · rcases le_total hi (env.freq t env.b1) with hh | hh
      · rw [max_eq_right hh]
        exact .inr ⟨m, by omega, by rw [Function.update_self]⟩
      · rw [max_eq_left hh]
        rcases g1 with g1 | ⟨i, hi', g1⟩
        · exact .inl g1
        · exact .inr ⟨i, by omega, by rw [Function.update_of_ne (by omega)]; exact g1⟩
    · rintro f (hf | ⟨i, hi', rfl⟩)
      · exact le_max_of_le_left (g2 (.inl hf))
      · by_cases he : i = m
        · subst he
          rw [Function.update_self]
          exact le_max_right _ _
        · rw [Function.update_of_ne he]
          exact le_max_of_le_left (g2 (.inr ⟨i, by omega, rfl⟩))
    · by_cases h0 : m = 0
      · subst h0
        rw [← hL, l1 rfl]
        exact ⟨0, by omega, by rw [Function.update_self]⟩
      · obtain ⟨l, rfl, ⟨i, hi', e⟩, -⟩ := l2 (by omega)
        have hL : min l (env.freq t env.b2) = L := hL
        rw [← hL]
        rcases le_total l (env.freq t env.b2) with hh | hh
        · rw [min_eq_left hh]
          exact ⟨i, by omega, by rw [Function.update_of_ne (by omega)]; exact e⟩
        · rw [min_eq_right hh]
          exact ⟨m, by omega, by rw [Function.update_self]⟩
    · rintro f ⟨i, hi', rfl⟩
      by_cases h0 : m = 0
      · subst h0
        rw [← hL, l1 rfl]
        obtain rfl : i = 0 := by omega
        rw [Function.update_self]
      · obtain ⟨l, rfl, -, b⟩ := l2 (by omega)
        have hL : min l (env.freq t env.b2) = L := hL
        rw [← hL]
        by_cases he : i = m
        · subst he
          rw [Function.update_self]
          exact min_le_right _ _
        · rw [Function.update_of_ne he]
          exact min_le_of_left_le (b ⟨i, by omega, rfl⟩)

/-- C53: the value returned by `material-grids-maxgap` and `material-grids-mingap` is the relative gap, from the largest frequency (or
0) of the first band to the smallest of the second over all k-points, computed from runs of the solver for the final material grids. -/
theorem C53_result {env : Env P} {n : ℕ} (hs : Setup env n) (hk : 0 < env.ks.length) (st : St P) (ha : Allocated st.mem env.grids) (u : Arr)
    (hu : u.len = n) :
    ∃ (s : ℕ → Sol) (hi lo : ℝ), finish env n u st = some ((lo - hi) * 2 / (hi + lo)) ∧
      (∀ i (h : i < env.ks.length), Holds u env.grids (s i).eps ∧ (s i).k = env.ks[i]) ∧
      IsGreatest ({0} ∪ {f | ∃ i < env.ks.length, f = env.freq (s i) env.b1}) hi ∧
      IsLeast {f | ∃ i < env.ks.length, f = env.freq (s i) env.b2} lo := by
  obtain ⟨m, e1, h1, h2⟩ := maxgapFunc_spec hs hu st ha
  obtain ⟨s, st', hi, lo, e2, -, h3, h4, -, h5⟩ := scan_spec hs hu (st := { st with mem := m, eps := m, iter := st.iter + 1, unsolved := true })
    ⟨h1, h2, fun h => by simp at h⟩ env.ks.length le_rfl
  obtain ⟨l, rfl, h6⟩ := h5 hk
  refine ⟨s, hi, l, ?_, fun i h => h3 i h h, h4, h6⟩
  unfold finish
  simp only [e1, Option.bind_eq_bind, Option.bind_some, e2]
  cases env.doMin <;> norm_num

/-- Non-vacuity: one grid of two numbers, one k-point, two processes. -/
def env1 : Env 2 := ⟨[⟨.uMin, 1, 12, 1, 1, 2, 1, 1, 0⟩], [⟨0, 0, 0⟩], 1, 2, false, fun s b => b + s.id, fun _ _ _ i => i⟩

example : Setup env1 4 ∧ 0 < env1.ks.length ∧ Allocated (fun _ => twoPixels) env1.grids := by
  refine ⟨⟨by simp [env1, offset], by simp [env1, DistinctArrays]⟩, by simp [env1], ?_⟩
  intro g hg
  simp only [env1, List.mem_singleton] at hg
  subst hg
  simp [twoPixels]

/-! ## C52 -/

/-- C52: the gradient of the gap objective is its exact derivative with respect to each variable, wherever the sum of the two edges is
not zero. -/
theorem C52_maxgap_gradient {env : Env P} {n : ℕ} (hs : Setup env n) (st : St P) (ha : Allocated st.mem env.grids) (u : Arr) (hu : u.len = n)
    (hf : u.get (n - 1) + u.get (n - 2) ≠ 0) (i : ℕ) (hi : i < n) :
    ∃ (φ : ℝ → ℝ) (val : ℝ) (grad : ℕ → ℝ) (st' : St P), maxgapFunc env n u st = some (val, grad, st') ∧
      (∀ t, ∃ r, maxgapFunc env n (setEntry u i t) st = some r ∧ r.1 = φ t) ∧ val = φ (u.get i) ∧ HasDerivAt φ (grad i) (u.get i) := by
  have hn := hs.n
  obtain ⟨m, e, -, -⟩ := maxgapFunc_spec hs hu st ha
  have key : ∀ t, ∃ r, maxgapFunc env n (setEntry u i t) st = some r ∧ r.1 = (if env.doMin then
      gapOf ((setEntry u i t).get (n - 1)) ((setEntry u i t).get (n - 2)) else
      -gapOf ((setEntry u i t).get (n - 1)) ((setEntry u i t).get (n - 2))) := fun t => by
    obtain ⟨m, e, -, -⟩ := maxgapFunc_spec hs (u := setEntry u i t) hu st ha
    exact ⟨_, e, rfl⟩
  refine ⟨_, _, _, _, e, key, ?_, ?_⟩
  · simp [setEntry]
  generalize hf1 : u.get (n - 1) = f1 at hf
  generalize hf2 : u.get (n - 2) = f2 at hf
  have e1 : ∀ t, (setEntry u i t).get (n - 1) = if i = n - 1 then t else f1 := fun t => by
    simp only [setEntry]
    split_ifs with h
    · rw [h, Function.update_self]
    · rw [Function.update_of_ne (Ne.symm h), hf1]
  have e2 : ∀ t, (setEntry u i t).get (n - 2) = if i = n - 2 then t else f2 := fun t => by
    simp only [setEntry]
    split_ifs with h
    · rw [h, Function.update_self]
    · rw [Function.update_of_ne (Ne.symm h), hf2]
  simp only [e1, e2]
  have d1 : HasDerivAt (fun t => gapOf t f2) (-(4 * f2) / ((f1 + f2) * (f1 + f2))) f1 := by
    have a : HasDerivAt (fun t : ℝ => (f2 - t) * 2.0) (-1 * 2.0) f1 := ((hasDerivAt_id f1).const_sub f2).mul_const _
    have b : HasDerivAt (fun t : ℝ => t + f2) 1 f1 := (hasDerivAt_id f1).add_const f2
    have c := a.fun_div b hf
    unfold gapOf
    refine c.congr_deriv ?_
    rw [sq]
    congr 1
    norm_num
    ring
  have d2 : HasDerivAt (fun t => gapOf f1 t) ((4 * f1) / ((f1 + f2) * (f1 + f2))) f2 := by
    have a : HasDerivAt (fun t : ℝ => (t - f1) * 2.0) (1 * 2.0) f2 := ((hasDerivAt_id f2).sub_const f1).mul_const _
    have b : HasDerivAt (fun t : ℝ => f1 + t) 1 f2 := (hasDerivAt_id f2).const_add f1
    have c := a.fun_div b hf
    unfold gapOf
    refine c.congr_deriv ?_
    rw [sq]
    congr 1
    norm_num
    ring
  have q1 : (2.0 * ((f1 + f2) - (f1 - f2)) / ((f1 + f2) * (f1 + f2)) : ℝ) = -(-(4 * f2) / ((f1 + f2) * (f1 + f2))) := by
    field_simp
    norm_num
    ring
  have q2 : (2.0 * (-(f1 + f2) - (f1 - f2)) / ((f1 + f2) * (f1 + f2)) : ℝ) = -((4 * f1) / ((f1 + f2) * (f1 + f2))) := by
    field_simp
    norm_num
    ring
  unfold gapGrad
  simp only [q1, q2]
  by_cases h1 : i = n - 1
  · have h2 : ¬ i = n - 2 := by omega
    have hu1 : u.get i = f1 := by rw [h1, hf1]
    rw [hu1]
    simp only [if_pos h1, if_neg h2]
    cases env.doMin
    · simpa using d1.fun_neg
    · simpa using d1
  · by_cases h2 : i = n - 2
    · have hu1 : u.get i = f2 := by rw [h2, hf2]
      rw [hu1]
      simp only [if_pos h2, if_neg h1]
      cases env.doMin
      · simpa using d2.fun_neg
      · simpa using d2
    · simp only [if_neg h1, if_neg h2]
      exact hasDerivAt_const _ _

/-- What `mindiff_func` computes, for `n` variables (at least 2). -/
theorem mindiff_spec {env : Env P} {n : ℕ} (hn : n = offset env.grids) (h2 : 2 ≤ n) (hd : DistinctArrays env.grids) (k : V3 ℝ) (st : St P)
    (ha : Allocated st.mem env.grids) (u : Arr) (hu : u.len = n) (grad : ℕ → ℝ) :
    ∃ s2 s1 g st', mindiffFunc env k n u grad st = some (env.freq s2 env.b1 - env.freq s1 env.b1, g, st') ∧
      Holds u env.grids s2.eps ∧ Holds u env.grids s1.eps ∧ s2.k = k ∧ s1.k = k ∧ s2.parity = 1 ∧ s1.parity = 2 ∧
      Allocated st'.mem env.grids ∧
      (∀ p i, i < n → st'.work p i = (if i + 2 < n then 0 else st.work p i) + env.dfreq s2 env.b1 p i - env.dfreq s1 env.b1 p i) ∧
      ∀ i < n, g i = ∑ p, st'.work p i := by
  have hnt : ntotAll env.grids = offset env.grids := C51_total env.grids
  obtain ⟨m, e1, h1, h3⟩ := setGrids_spec (n := n + 2) ⟨by omega, hd⟩ (u := u) (by omega) { st with iter := st.iter + 1 } ha
  unfold mindiffFunc
  simp only [e1, Option.bind_eq_bind, Option.bind_some, clearWork, if_neg (show ¬ ((n : ℤ) - 2 < 0) by omega), solve, addGradient]
  refine ⟨_, _, _, _, rfl, h3, h3, rfl, rfl, rfl, rfl, h1, ?_, ?_⟩
  · intro p i hi
    simp only [if_pos (show i < ntotAll env.grids by omega)]
    by_cases hh : i + 2 < n
    · rw [if_pos (by omega), if_pos hh]; ring
    · rw [if_neg (by omega), if_neg hh]; ring
  · intro i hi
    simp only [allreduce, if_pos hi]

/-- C52: the TE/TM objective is the difference of the two frequencies, computed for the grids set to `u`; all but the last two entries of
its gradient are the differences of the frequencies' gradients.  (The last two depend on the history: `C52_history_refuted`.) -/
theorem C52_mindiff_partial {env : Env P} {n : ℕ} (hn : n = offset env.grids) (h2 : 2 ≤ n) (hd : DistinctArrays env.grids) (k : V3 ℝ) (st : St P)
    (ha : Allocated st.mem env.grids) (u : Arr) (hu : u.len = n) (grad : ℕ → ℝ) :
    ∃ s2 s1 g st', mindiffFunc env k n u grad st = some (env.freq s2 env.b1 - env.freq s1 env.b1, g, st') ∧
      Holds u env.grids s2.eps ∧ Holds u env.grids s1.eps ∧ s2.k = k ∧ s1.k = k ∧ s2.parity = 1 ∧ s1.parity = 2 ∧
      ∀ i, i + 2 < n → g i = ∑ p, env.dfreq s2 env.b1 p i - ∑ p, env.dfreq s1 env.b1 p i := by
  obtain ⟨s2, s1, g, st', e, a1, a2, a3, a4, a5, a6, -, a7, a8⟩ := mindiff_spec hn h2 hd k st ha u hu grad
  refine ⟨s2, s1, g, st', e, a1, a2, a3, a4, a5, a6, fun i hi => ?_⟩
  rw [a8 i (by omega), ← Finset.sum_sub_distrib]
  apply Finset.sum_congr rfl
  intro p _
  rw [a7 p i (by omega), if_pos hi]
  ring

/-- C52 fails for the TE/TM objective: for the last two variables the entry of the gradient is added to what was there before.  A second
evaluation at any point `u'` gives the sum of the first evaluation's entry and of the derivative at `u'`; and the first evaluation
itself adds to whatever was in the memory from `malloc`. -/
theorem C52_history_refuted {env : Env P} {n : ℕ} (hn : n = offset env.grids) (h2 : 2 ≤ n) (hd : DistinctArrays env.grids) (k : V3 ℝ) (st : St P)
    (ha : Allocated st.mem env.grids) (u u' : Arr) (hu : u.len = n) (hu' : u'.len = n) (grad grad' : ℕ → ℝ) :
    ∃ v g st1 v' g' st2 s2 s1 s2' s1', mindiffFunc env k n u grad st = some (v, g, st1) ∧ mindiffFunc env k n u' grad' st1 = some (v', g', st2) ∧
      Holds u env.grids s2.eps ∧ Holds u env.grids s1.eps ∧ Holds u' env.grids s2'.eps ∧ Holds u' env.grids s1'.eps ∧
      ∀ i < n, n ≤ i + 2 → g i = (∑ p, st.work p i) + (∑ p, env.dfreq s2 env.b1 p i - ∑ p, env.dfreq s1 env.b1 p i) ∧
        g' i = g i + (∑ p, env.dfreq s2' env.b1 p i - ∑ p, env.dfreq s1' env.b1 p i) := by
  obtain ⟨s2, s1, g, st1, e, a1, a2, -, -, -, -, aa, a7, a8⟩ := mindiff_spec hn h2 hd k st ha u hu grad
  obtain ⟨s2', s1', g', st2, e', b1, b2, -, -, -, -, -, b7, b8⟩ := mindiff_spec hn h2 hd k st1 aa u' hu' grad'
  refine ⟨_, g, st1, _, g', st2, s2, s1, s2', s1', e, e', a1, a2, b1, b2, fun i hi hi2 => ⟨?_, ?_⟩⟩
  · rw [a8 i hi, ← Finset.sum_sub_distrib, ← Finset.sum_add_distrib]
    apply Finset.sum_congr rfl
    intro p _
    rw [a7 p i hi, if_neg (by omega)]
    ring
  · rw [b8 i hi, a8 i hi, ← Finset.sum_sub_distrib, ← Finset.sum_add_distrib]
    apply Finset.sum_congr rfl
    intro p _
    rw [b7 p i hi, if_neg (by omega)]
    ring

/-- C52 fails for a single variable: the first evaluation with a gradient calls `memset` with a negative size. -/
theorem C52_single_refuted {env : Env P} (k : V3 ℝ) (st : St P) (u : Arr) (grad : ℕ → ℝ) : mindiffFunc env k 1 u grad st = none := by
  unfold mindiffFunc
  cases setGrids env u { st with iter := st.iter + 1 } <;> rfl

/-- The concrete case: one grid with two numbers; the derivatives of the frequencies do not depend on anything but the parity.  Two
evaluations at the same point give different gradients. -/
theorem C52_example_refuted : ∃ (env : Env 1) (st : St 1) (u : Arr) (k : V3 ℝ) (grad : ℕ → ℝ) (v v' : ℝ) (g g' : ℕ → ℝ) (st1 st2 : St 1),
    mindiffFunc env k 2 u grad st = some (v, g, st1) ∧ mindiffFunc env k 2 u grad st1 = some (v', g', st2) ∧ v = v' ∧ g 0 = 1 ∧ g' 0 = 2 := by
  let env : Env 1 := ⟨[⟨.uMin, 1, 12, 1, 1, 2, 1, 1, 0⟩], [], 1, 1, false, fun s _ => s.parity, fun s _ _ _ => 2 - s.parity⟩
  let st : St 1 := ⟨fun _ => twoPixels, fun _ => twoPixels, ⟨0, 0, 0⟩, none, 0, 0, 0, true, fun _ => 0, fun _ => 0, fun _ _ => 0⟩
  have hal : Allocated st.mem env.grids := by
    intro g hg
    simp only [env, List.mem_singleton] at hg
    subst hg
    simp [st, twoPixels]
  have hd : DistinctArrays env.grids := by simp [env, DistinctArrays]
  have hn : 2 = offset env.grids := by simp [env, offset]
  obtain ⟨s2, s1, g, st1, e, a1, a2, -, -, p1, p2, aa, a7, a8⟩ := mindiff_spec hn le_rfl hd ⟨0, 0, 0⟩ st hal twoPixels rfl (fun _ => 0)
  obtain ⟨s2', s1', g', st2, e', b1, b2, -, -, p1', p2', -, b7, b8⟩ := mindiff_spec hn le_rfl hd ⟨0, 0, 0⟩ st1 aa twoPixels rfl (fun _ => 0)
  refine ⟨env, st, twoPixels, ⟨0, 0, 0⟩, fun _ => 0, _, _, g, g', st1, st2, e, e', ?_, ?_, ?_⟩
  · simp only [env, p1, p2, p1', p2']
  · rw [a8 0 (by omega)]
    simp only [Finset.univ_unique, Finset.sum_singleton, a7 _ 0 (by omega : 0 < 2)]
    simp only [env, st, p1, p2]
    norm_num
  · rw [b8 0 (by omega)]
    simp only [Finset.univ_unique, Finset.sum_singleton, b7 _ 0 (by omega : 0 < 2), a7 _ 0 (by omega : 0 < 2)]
    simp only [env, st, p1, p2, p1', p2']
    norm_num

/-! ## C73 -/

/-- Specification: the point `(x, f1, f2)` is allowed in the optimisation: the bounds are not negative and the code's constraints, with
the solutions `s x ik` for the structure `x`, are all at most 0. -/
def Spec.Feasible {X : Type} (env : Env P) (s : X → ℕ → Sol) (x : X) (f1 f2 : ℝ) : Prop :=
  0 ≤ f1 ∧ 0 ≤ f2 ∧ ∀ ik < env.ks.length, ∀ kind (st : St P), (constraintVal env kind ik f2 f1 (s x ik) st).1 ≤ 0

/-- Specification: the structure `x` has the band edges `f1` (top of the first band, over the k-points) and `f2` (bottom of the second). -/
def Spec.Edges {X : Type} (env : Env P) (s : X → ℕ → Sol) (x : X) (f1 f2 : ℝ) : Prop :=
  IsGreatest {f | ∃ i < env.ks.length, f = env.freq (s x i) env.b1} f1 ∧ IsLeast {f | ∃ i < env.ks.length, f = env.freq (s x i) env.b2} f2

theorem feasible_iff {X : Type} (env : Env P) (s : X → ℕ → Sol) (x : X) {e1 e2 : ℝ} (h : Edges env s x e1 e2) (st : St P) (f1 f2 : ℝ) :
    Feasible env s x f1 f2 ↔ 0 ≤ f1 ∧ 0 ≤ f2 ∧ e1 ≤ f1 ∧ f2 ≤ e2 := by
  constructor
  · rintro ⟨h1, h2, h3⟩
    obtain ⟨i, hi, rfl⟩ := h.1.1
    obtain ⟨j, hj, rfl⟩ := h.2.1
    have a := h3 i hi .band1 st
    have b := h3 j hj .band2 st
    simp only [constraintVal] at a b
    exact ⟨h1, h2, by linarith, by linarith⟩
  · rintro ⟨h1, h2, h3, h4⟩
    refine ⟨h1, h2, fun ik hk kind st => ?_⟩
    cases kind
    · have := h.1.2 ⟨ik, hk, rfl⟩
      simp only [constraintVal]
      linarith
    · have := h.2.2 ⟨ik, hk, rfl⟩
      simp only [constraintVal]
      linarith

theorem gapOf_mono {a b c d : ℝ} (ha : 0 < a) (hab : a ≤ b) (hc : 0 ≤ c) (hcd : c ≤ d) : gapOf b c ≤ gapOf a d := by
  unfold gapOf
  rw [div_le_div_iff₀ (by linarith) (by linarith)]
  norm_num
  nlinarith

/-- C73: for `material-grids-maxgap`, a point that minimises the objective subject to the constraints is a structure with the largest
relative gap among all structures (positive frequencies, as for nonzero k-points). -/
theorem C73_maxgap {X : Type} (env : Env P) (hd : env.doMin = false) (st : St P) (s : X → ℕ → Sol) (edge1 edge2 : X → ℝ)
    (he : ∀ x, Edges env s x (edge1 x) (edge2 x)) (hpos : ∀ x, 0 < edge1 x ∧ 0 < edge2 x) (x : X) (f1 f2 : ℝ) (hf : Feasible env s x f1 f2)
    (hopt : ∀ x' f1' f2', Feasible env s x' f1' f2' →
      (if env.doMin then gapOf f1 f2 else -gapOf f1 f2) ≤ (if env.doMin then gapOf f1' f2' else -gapOf f1' f2')) (x' : X) :
    gapOf (edge1 x') (edge2 x') ≤ gapOf (edge1 x) (edge2 x) := by
  have h1 := hopt x' (edge1 x') (edge2 x') ((feasible_iff env s x' (he x') st _ _).2 ⟨(hpos x').1.le, (hpos x').2.le, le_rfl, le_rfl⟩)
  obtain ⟨-, a, b, c⟩ := (feasible_iff env s x (he x) st f1 f2).1 hf
  have h2 := gapOf_mono (hpos x).1 b a c
  simp only [hd, Bool.false_eq_true, if_false] at h1
  linarith

/-- C73 fails for `material-grids-mingap`: for every structure `x`, the point `(x, f1, 0)`, with any allowed `f1 > 0`, is allowed and
minimises the objective, which is `-2` there; nothing about the structure is optimised. -/
theorem C73_mingap_refuted {X : Type} (env : Env P) (hd : env.doMin = true) (st : St P) (s : X → ℕ → Sol) (edge1 edge2 : X → ℝ)
    (he : ∀ x, Edges env s x (edge1 x) (edge2 x)) (hpos : ∀ x, 0 < edge1 x ∧ 0 < edge2 x) (x : X) :
    Feasible env s x (edge1 x) 0 ∧ ∀ x' f1' f2', Feasible env s x' f1' f2' →
      (if env.doMin then gapOf (edge1 x) 0 else -gapOf (edge1 x) 0) ≤ (if env.doMin then gapOf f1' f2' else -gapOf f1' f2') := by
  refine ⟨(feasible_iff env s x (he x) st _ _).2 ⟨(hpos x).1.le, le_rfl, le_rfl, (hpos x).2.le⟩, ?_⟩
  intro x' f1' f2' hf
  obtain ⟨-, a, b, c⟩ := (feasible_iff env s x' (he x') st _ _).1 hf
  simp only [hd, if_true]
  have h1 := (hpos x).1
  have h2 : 0 < f1' := lt_of_lt_of_le (hpos x').1 b
  unfold gapOf
  rw [div_le_div_iff₀ (by linarith) (by linarith)]
  norm_num
  nlinarith [mul_nonneg a h1.le]

/-- The concrete case: two structures, with the gaps 2/3 and 1; both are optimal for `material-grids-mingap`, with suitable `f1`, `f2`. -/
theorem C73_example_refuted : ∃ (env : Env 1) (s : Bool → ℕ → Sol) (edge1 edge2 : Bool → ℝ), env.doMin = true ∧
    (∀ x, Edges env s x (edge1 x) (edge2 x)) ∧ gapOf (edge1 true) (edge2 true) < gapOf (edge1 false) (edge2 false) ∧
    ∀ x, Feasible env s x (edge1 x) 0 ∧ ∀ x' f1' f2', Feasible env s x' f1' f2' →
      (if env.doMin then gapOf (edge1 x) 0 else -gapOf (edge1 x) 0) ≤ (if env.doMin then gapOf f1' f2' else -gapOf f1' f2') := by
  let env : Env 1 := ⟨[], [⟨0, 0, 0⟩], 1, 2, true, fun s b => if b = 1 then 1 else s.parity, fun _ _ _ _ => 0⟩
  let s : Bool → ℕ → Sol := fun x _ => ⟨fun _ => twoPixels, ⟨0, 0, 0⟩, if x then 2 else 3, 0⟩
  have he : ∀ x, Edges env s x 1 (if x then 2 else 3) := by
    intro x
    cases x
    · refine ⟨⟨⟨0, by simp [env], by simp [env]⟩, ?_⟩, ⟨0, by simp [env], by simp [env, s]⟩, ?_⟩ <;> rintro f ⟨i, -, rfl⟩ <;> simp [env, s]
    · refine ⟨⟨⟨0, by simp [env], by simp [env]⟩, ?_⟩, ⟨0, by simp [env], by simp [env, s]⟩, ?_⟩ <;> rintro f ⟨i, -, rfl⟩ <;> simp [env, s]
  refine ⟨env, s, fun _ => 1, fun x => if x then 2 else 3, rfl, he, ?_, fun x => ?_⟩
  · simp only [gapOf]
    norm_num
  · exact C73_mingap_refuted env rfl ⟨fun _ => twoPixels, fun _ => twoPixels, ⟨0, 0, 0⟩, none, 0, 0, 0, true, fun _ => 0, fun _ => 0, fun _ _ => 0⟩ s
      (fun _ => 1) (fun x => if x then 2 else 3) he (fun x => by cases x <;> norm_num) x

/-- Non-vacuity of `C73_maxgap`: for a single structure its band edges are optimal. -/
example : ∃ (env : Env 1) (s : Unit → ℕ → Sol) (st : St 1), env.doMin = false ∧ Edges env s () 1 2 ∧ Feasible env s () 1 2 ∧
    ∀ x' f1' f2', Feasible env s x' f1' f2' → -gapOf 1 2 ≤ -gapOf f1' f2' := by
  let env : Env 1 := ⟨[], [⟨0, 0, 0⟩], 1, 2, false, fun _ b => b, fun _ _ _ _ => 0⟩
  let st : St 1 := ⟨fun _ => twoPixels, fun _ => twoPixels, ⟨0, 0, 0⟩, none, 0, 0, 0, true, fun _ => 0, fun _ => 0, fun _ _ => 0⟩
  let s : Unit → ℕ → Sol := fun _ _ => ⟨fun _ => twoPixels, ⟨0, 0, 0⟩, 0, 0⟩
  have he : Edges env s () 1 2 := by
    refine ⟨⟨⟨0, by simp [env], by simp [env]⟩, ?_⟩, ⟨0, by simp [env], by simp [env]⟩, ?_⟩ <;> rintro f ⟨i, -, rfl⟩ <;> simp [env]
  refine ⟨env, s, st, rfl, he, (feasible_iff env s () he st 1 2).2 ⟨by norm_num, by norm_num, le_rfl, le_rfl⟩, ?_⟩
  rintro ⟨⟩ f1' f2' hf
  obtain ⟨-, a, b, c⟩ := (feasible_iff env s () he st _ _).1 hf
  linarith [gapOf_mono (show (0 : ℝ) < 1 by norm_num) b a c]

end Mpb.MatOpt

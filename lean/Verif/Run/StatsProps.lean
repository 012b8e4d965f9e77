import Verif.Run.StatsModel
import Verif.Run.Props
import Mathlib.Order.Bounds.Basic
import Mathlib.Order.Interval.Set.Defs
import Mathlib.Tactic.Linarith
import Mathlib.Tactic.FieldSimp

/-! # Property C119: the statistics of the eigensolver -/

namespace Mpb.Run

namespace Spec

variable {F : Type} [LinearOrder F]

/-- `m` is a median of the list: at most half of the entries are below it, and at most half above. -/
def IsMedian (l : List F) (m : F) : Prop := 2 * l.countP (· < m) ≤ l.length ∧ 2 * l.countP (m < ·) ≤ l.length

end Spec

open Mpb.Scheme Spec

variable {F : Type} [Field F] [LinearOrder F] [IsStrictOrderedRing F]

omit [Field F] [IsStrictOrderedRing F] in
theorem count_below (s : List F) (hs : s.Pairwise (· ≤ ·)) (m : F) (k : ℕ) (hk : k < s.length) : s.countP (· < m) ≤ k ↔ m ≤ s[k] := by
  induction s generalizing k with
  | nil => simp at hk
  | cons x t ih =>
    rw [List.pairwise_cons] at hs
    by_cases hx : x < m
    · rw [List.countP_cons_of_pos (by simpa using hx)]
      cases k with
      | zero => simpa using hx
      | succ k => simpa using ih hs.2 k (by simpa using hk)
    · rw [List.countP_cons_of_neg (by simpa using hx)]
      have h0 : t.countP (· < m) = 0 := by
        rw [List.countP_eq_zero]
        intro y hy
        simpa using (not_lt.1 hx).trans (hs.1 y hy)
      rw [h0]
      simp only [Nat.zero_le, true_iff]
      cases k with
      | zero => exact not_lt.1 hx
      | succ k => exact (not_lt.1 hx).trans (hs.1 _ (List.getElem_mem _))

omit [Field F] [IsStrictOrderedRing F] in
theorem count_above (s : List F) (hs : s.Pairwise (· ≤ ·)) (m : F) (k : ℕ) (hk : k < s.length) : s.countP (m < ·) + k + 1 ≤ s.length ↔ s[k] ≤ m := by
  induction s generalizing k with
  | nil => simp at hk
  | cons x t ih =>
    rw [List.pairwise_cons] at hs
    by_cases hx : m < x
    · rw [List.countP_cons_of_pos (by simpa using hx)]
      have h0 : t.countP (m < ·) = t.length := by
        rw [List.countP_eq_length]
        intro y hy
        simpa using hx.trans_le (hs.1 y hy)
      rw [h0, List.length_cons]
      have : m < (x :: t)[k] := by
        cases k with
        | zero => exact hx
        | succ k => exact hx.trans_le (hs.1 _ (List.getElem_mem _))
      constructor
      · intro h; omega
      · intro h; exact absurd this (not_lt.2 h)
    · rw [List.countP_cons_of_neg (by simpa using hx), List.length_cons]
      cases k with
      | zero =>
        have := List.countP_le_length (p := fun y => decide (m < y)) (l := t)
        simp only [List.getElem_cons_zero]
        exact ⟨fun _ => not_lt.1 hx, fun _ => by omega⟩
      | succ k =>
        rw [List.getElem_cons_succ, ← ih hs.2 k (by simpa using hk)]
        omega

omit [Field F] [IsStrictOrderedRing F] in
theorem foldl_min (xs : List F) (x : F) : IsLeast {y | y ∈ x :: xs} (xs.foldl min x) := by
  induction xs generalizing x with
  | nil => exact ⟨by simp, fun y hy => by simp only [Set.mem_setOf_eq, List.mem_singleton] at hy; rw [hy]; exact le_rfl⟩
  | cons z zs ih =>
    obtain ⟨h1, h2⟩ := ih (min x z)
    rw [List.foldl_cons]
    refine ⟨?_, fun y hy => ?_⟩
    · simp only [Set.mem_setOf_eq, List.mem_cons] at h1 ⊢
      rcases h1 with h1 | h1
      · rw [h1]
        rcases min_choice x z with h | h <;> rw [h] <;> simp
      · exact Or.inr (Or.inr h1)
    · simp only [Set.mem_setOf_eq, List.mem_cons] at hy
      have h3 := h2 (show min x z ∈ {y | y ∈ min x z :: zs} by simp)
      rcases hy with rfl | rfl | hy
      · exact h3.trans (min_le_left _ _)
      · exact h3.trans (min_le_right _ _)
      · exact h2 (by simp [hy])

omit [Field F] [IsStrictOrderedRing F] in
theorem foldl_max (xs : List F) (x : F) : IsGreatest {y | y ∈ x :: xs} (xs.foldl max x) := by
  induction xs generalizing x with
  | nil => exact ⟨by simp, fun y hy => by simp only [Set.mem_setOf_eq, List.mem_singleton] at hy; rw [hy]; exact le_rfl⟩
  | cons z zs ih =>
    obtain ⟨h1, h2⟩ := ih (max x z)
    rw [List.foldl_cons]
    refine ⟨?_, fun y hy => ?_⟩
    · simp only [Set.mem_setOf_eq, List.mem_cons] at h1 ⊢
      rcases h1 with h1 | h1
      · rw [h1]
        rcases max_choice x z with h | h <;> rw [h] <;> simp
      · exact Or.inr (Or.inr h1)
    · simp only [Set.mem_setOf_eq, List.mem_cons] at hy
      have h3 := h2 (show max x z ∈ {y | y ∈ max x z :: zs} by simp)
      rcases hy with rfl | rfl | hy
      · exact (le_max_left _ _).trans h3
      · exact (le_max_right _ _).trans h3
      · exact h2 (by simp [hy])

/-- C119: `(display-eigensolver-stats)` prints nothing before the first k-point; afterwards the number of k-points, the least, greatest and mean number
of iterations, the middle of the interval of the medians, and flops and time per iteration unless there was no iteration at all. -/
theorem C119_stats (iters : List F) (flops time : F) :
    (iters = [] → stats iters flops time = .ok none) ∧
    (iters ≠ [] → ∃ st, stats iters flops time = .ok (some st) ∧ st.runs = iters.length ∧ IsLeast {x | x ∈ iters} st.least ∧
      IsGreatest {x | x ∈ iters} st.greatest ∧ st.mean * iters.length = iters.sum ∧
      (∃ a b, {m | IsMedian iters m} = Set.Icc a b ∧ a ≤ b ∧ st.median = (a + b) / 2) ∧
      (iters.sum ≠ 0 → st.flops = some (flops / iters.sum) ∧ st.time = some (time / iters.sum)) ∧
      (iters.sum = 0 → st.flops = none ∧ st.time = none)) := by
  refine ⟨fun h => by rw [h]; rfl, fun h => ?_⟩
  obtain ⟨x, xs, rfl⟩ := List.exists_cons_of_ne_nil h
  set l := x :: xs with hl
  set s := l.insertionSort (· ≤ ·) with hs
  have hlen : s.length = l.length := List.length_insertionSort _ _
  have hpos : 0 < l.length := by simp [hl]
  have hsort : s.Pairwise (· ≤ ·) := List.pairwise_insertionSort _ _
  have hperm : s.Perm l := List.perm_insertionSort _ _
  have i1 : l.length / 2 < s.length := by omega
  have i2 : (l.length + 1) / 2 - 1 < s.length := by omega
  have hn : (l.length : F) ≠ 0 := by exact_mod_cast hpos.ne'
  have hsum : l.foldr (· + ·) 0 = l.sum := rfl
  have e1 : (l.length : F) * (l.sum / l.length) = l.sum := mul_div_cancel₀ _ hn
  have e2 : l.sum / l.length * (l.length : F) = l.sum := div_mul_cancel₀ _ hn
  refine ⟨⟨l.length, xs.foldl min x, xs.foldl max x, l.sum / l.length, 1 / 2 * (s[l.length / 2] + s[(l.length + 1) / 2 - 1]), divide flops l.sum,
    divide time l.sum⟩, ?_, rfl, foldl_min xs x, foldl_max xs x, e2, ⟨s[(l.length + 1) / 2 - 1], s[l.length / 2], ?_, ?_, ?_⟩, ?_, ?_⟩
  · have q1 := List.getElem?_eq_getElem i1
    have q2 := List.getElem?_eq_getElem i2
    have q : stats l flops time = (match s[l.length / 2]?, s[(l.length + 1) / 2 - 1]? with
      | some a, some b => .ok (some ⟨l.length, xs.foldl min x, xs.foldl max x, l.sum / (l.length : F), 1 / 2 * (a + b),
          divide flops ((l.length : F) * (l.sum / (l.length : F))), divide time (l.sum / (l.length : F) * (l.length : F))⟩)
      | _, _ => .error ()) := rfl
    rw [q, q1, q2]
    simp only [e1, e2]
  · ext m
    simp only [Set.mem_setOf_eq, Set.mem_Icc, IsMedian]
    rw [← count_below s hsort m _ i1, ← count_above s hsort m _ i2, hperm.countP_eq, hperm.countP_eq, hlen]
    constructor
    · rintro ⟨a, b⟩; constructor <;> omega
    · rintro ⟨a, b⟩; constructor <;> omega
  · exact List.pairwise_iff_getElem.1 hsort |> fun f => by
      rcases Nat.lt_or_ge ((l.length + 1) / 2 - 1) (l.length / 2) with h | h
      · exact f _ _ i2 i1 h
      · have : (l.length + 1) / 2 - 1 = l.length / 2 := by omega
        simp only [this]
        exact le_rfl
  · ring
  · intro h0
    exact ⟨if_neg h0, if_neg h0⟩
  · intro h0
    exact ⟨if_pos h0, if_pos h0⟩

/-- Non-vacuity: three k-points that took 9, 4 and 5 iterations. -/
example : stats [9, 4, 5] (36 : ℚ) 9 = .ok (some ⟨3, 4, 9, 6, 5, some 2, some (1 / 2)⟩) := by
  have h : [9, 4, 5].insertionSort (· ≤ ·) = [4, 5, (9 : ℚ)] := by norm_num [List.insertionSort, List.orderedInsert]
  unfold stats
  simp only [h]
  norm_num [divide]

variable {K E X : Type}

omit [IsStrictOrderedRing F]

/-- The calls of the user's functions leave the list of iterations alone. -/
theorem iters_entries (env : Env K E F X) (ps : List (Prim K E F X)) (l : List (Entry K E F X)) (hl : ∀ e ∈ l, e = .randomize ∨ ∃ p ∈ ps, e = .fn p.fn)
    (s : St K E F X) : (l.foldl (callEntry env) s).iters = s.iters := by
  induction l generalizing s with
  | nil => rfl
  | cons e l ih =>
    rw [List.foldl_cons, ih (fun e he => hl e (by simp [he]))]
    rcases hl e (by simp) with rfl | ⟨p, -, rfl⟩
    · rfl
    · unfold Prim.fn
      cases p.thunk with
      | true => rfl
      | false =>
        simp only [Bool.false_eq_true, if_false, callEntry]
        generalize env.numBands = n
        clear ih hl
        induction n with
        | zero => rfl
        | succ n ih => rw [List.range_succ, List.foldl_append]; exact ih

/-- C119: the statistics are those of all k-points solved so far.  A run adds to the list, for each k-point of its share in order, the number of
iterations of its solution divided by the number of bands; it removes nothing. -/
theorem C119_collected (env : Env K E F X) (hn : 0 < env.numBands) (ps : List (Prim K E F X)) (p : ℤ) (reset : Reset) (s : St K E F X) :
    ∃ its : List ℕ, (runParity env p reset (ps.map fun p => .fn p.fn) s).iters = s.iters ++ its.map (fun n => (n : F) / env.numBands) ∧
      List.Forall₂ (fun k n => ∃ e y, (env.solver env.numBands k e y).2.2.1 = n) (listSplit env.kPoints env.splitNum env.splitIndex).2 its := by
  have hent : ∀ e ∈ entries env (ps.map fun p => Entry.fn p.fn), e = .randomize ∨ ∃ p ∈ ps, e = .fn p.fn := by
    intro e he
    have : e ∈ Entry.randomize :: ps.map (fun p => Entry.fn p.fn) := by
      unfold entries at he
      split_ifs at he
      · exact he
      · exact List.mem_cons_of_mem _ he
    rw [List.mem_cons, List.mem_map] at this
    rcases this with h | ⟨p, h1, h2⟩
    · exact Or.inl h
    · exact Or.inr ⟨p, h1, h2.symm⟩
  have key : ∀ (ks : List K) (s : St K E F X), ∃ its : List ℕ,
      (ks.foldl (kStep env (entries env (ps.map fun p => .fn p.fn))) s).iters = s.iters ++ its.map (fun n => (n : F) / env.numBands) ∧
        List.Forall₂ (fun k n => ∃ e y, (env.solver env.numBands k e y).2.2.1 = n) ks its := by
    intro ks
    induction ks with
    | nil => intro s; exact ⟨[], by simp, .nil⟩
    | cons k ks ih =>
      intro s
      obtain ⟨its, h1, h2⟩ := ih (kStep env (entries env (ps.map fun p => .fn p.fn)) s k)
      refine ⟨(env.solver env.numBands k s.eig s.rest).2.2.1 :: its, ?_, .cons ⟨s.eig, s.rest, rfl⟩ h2⟩
      rw [List.foldl_cons, h1, kStep, iters_entries env ps _ hent]
      simp [solveStep, solveKpoint]
  unfold runParity
  dsimp only
  rw [if_pos hn]
  obtain ⟨its, h1, h2⟩ := key (listSplit env.kPoints env.splitNum env.splitIndex).2
    (if (listSplit env.kPoints env.splitNum env.splitIndex).1 = 0 then
      outputMaterials env { runInit env p reset s with index := (listSplit env.kPoints env.splitNum env.splitIndex).1 }
     else { runInit env p reset s with index := (listSplit env.kPoints env.splitNum env.splitIndex).1 })
  refine ⟨its, h1.trans ?_, h2⟩
  congr 1
  have h0 : (runInit env p reset s).iters = s.iters := by
    unfold runInit
    cases reset <;> rfl
  split_ifs
  · unfold outputMaterials
    dsimp only
    split_ifs <;> exact h0
  · exact h0

end Mpb.Run

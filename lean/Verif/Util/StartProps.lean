import Verif.Util.StartModel
import Mathlib.Tactic.NormNum
import Mathlib.Tactic.Linarith

/-! # Property C120: the option `--nthread` -/

namespace Mpb.Util

namespace Spec

/-- No two options `--nthread=...` follow each other. -/
def Apart (argv : List (List Char)) : Prop := argv.IsChain fun a b => ¬ (isNthread a = true ∧ isNthread b = true)

/-- The number of threads asked for: by the last option, or else by the variable if it is positive, or else 1. -/
def wanted (atoi : List Char → ℤ) (senthread : Option (List Char)) (argv : List (List Char)) : ℤ :=
  match (argv.filter isNthread).getLast?, senthread with
  | some a, _ => atoi (a.drop 10)
  | none, some s => if 0 < atoi s then atoi s else 1
  | none, none => 1

end Spec

open Spec

theorem nthreadLoop_spec (atoi : List Char → ℤ) (k : ℕ) : ∀ (n : ℤ) (before rest : List (List Char)), rest.length ≤ k → Apart rest →
    nthreadLoop atoi n before rest = if ∀ a ∈ rest, isNthread a = true → 0 < atoi (a.drop 10) then
      some ((((rest.filter isNthread).getLast?).map fun a => atoi (a.drop 10)).getD n, before ++ rest.filter fun a => !isNthread a) else none := by
  induction k with
  | zero =>
    intro n before rest hk _
    obtain rfl := List.length_eq_zero_iff.1 (Nat.le_zero.1 hk)
    simp [nthreadLoop]
  | succ k ih =>
    intro n before rest hk hap
    match rest, hk, hap with
    | [], _, _ => simp [nthreadLoop]
    | [a], _, _ =>
      by_cases ha : isNthread a = true
      · by_cases hp : 0 < atoi (a.drop 10)
        · simp [nthreadLoop, ha, hp]
        · simp [nthreadLoop, ha, hp]
      · simp [nthreadLoop, ha]
    | a :: b :: rest, hk, hap =>
      simp only [List.length_cons] at hk
      have hap' : Apart (b :: rest) := by
        unfold Apart at hap ⊢
        exact (List.isChain_cons_cons.1 hap).2
      by_cases ha : isNthread a = true
      · have hb : isNthread b = false := by
          unfold Apart at hap
          have := (List.isChain_cons_cons.1 hap).1
          simpa [ha] using this
        have hap'' : Apart rest := by
          unfold Apart at hap' ⊢
          cases rest with
          | nil => exact .nil
          | cons c r => exact (List.isChain_cons_cons.1 hap').2
        by_cases hp : 0 < atoi (a.drop 10)
        · rw [nthreadLoop, if_pos ha, if_pos hp, ih _ _ rest (by omega) hap'']
          have hcond : (∀ c ∈ a :: b :: rest, isNthread c = true → 0 < atoi (c.drop 10)) ↔ ∀ c ∈ rest, isNthread c = true → 0 < atoi (c.drop 10) := by
            simp [ha, hb, hp]
          simp only [hcond]
          split_ifs
          · simp only [List.filter_cons, ha, hb, if_true, Bool.not_true, Bool.not_false, Bool.false_eq_true, if_false, List.append_assoc, List.singleton_append]
            congr 2
            cases hf : rest.filter isNthread with
            | nil => simp
            | cons c l =>
              rw [List.getLast?_cons_cons, List.getLast?_eq_some_getLast (List.cons_ne_nil c l)]
              rfl
          · rfl
        · rw [nthreadLoop, if_pos ha, if_neg hp, if_neg]
          intro h
          exact hp (h a (by simp) ha)
      · have ha' : isNthread a = false := by simpa using ha
        rw [nthreadLoop, if_neg ha, ih _ _ (b :: rest) (by simp only [List.length_cons]; omega) hap']
        have hcond : (∀ c ∈ a :: b :: rest, isNthread c = true → 0 < atoi (c.drop 10)) ↔ ∀ c ∈ b :: rest, isNthread c = true → 0 < atoi (c.drop 10) := by
          simp [ha']
        simp only [hcond]
        rw [List.filter_cons (p := isNthread) (x := a), if_neg ha, List.filter_cons (p := fun a => !isNthread a) (x := a), ha']
        simp only [Bool.not_false, if_true, List.append_assoc, List.singleton_append]

/-- C120 (partial: options next to each other, see `C120_adjacent_refuted`).  If no two options `--nthread=N` (in any case of letters) stand next to
each other: if one of them has an `N` that is not positive the program stops; otherwise all are taken out, the other arguments keep their order, and
the number of threads is that of the last option, or else that of `OMP_NUM_THREADS` if it is positive, or else 1. -/
theorem C120_nthread_partial (atoi : List Char → ℤ) (senthread : Option (List Char)) (argv : List (List Char)) (h : Apart argv) :
    ((∀ a ∈ argv, isNthread a = true → 0 < atoi (a.drop 10)) →
      startHook atoi senthread argv = some (wanted atoi senthread argv, argv.filter fun a => !isNthread a) ∧ 0 < wanted atoi senthread argv) ∧
    ((∃ a ∈ argv, isNthread a = true ∧ atoi (a.drop 10) ≤ 0) → startHook atoi senthread argv = none) := by
  have hs := fun n => nthreadLoop_spec atoi argv.length n [] argv le_rfl h
  constructor
  · intro hp
    constructor
    · unfold startHook wanted
      dsimp only
      rw [hs, if_pos hp]
      cases hf : (argv.filter isNthread).getLast? with
      | some a => cases senthread <;> simp
      | none => cases senthread <;> simp
    · unfold wanted
      cases hf : (argv.filter isNthread).getLast? with
      | some a =>
        have ha := List.mem_of_getLast? hf
        rw [List.mem_filter] at ha
        cases senthread <;> exact hp a ha.1 ha.2
      | none =>
        cases senthread with
        | none => exact one_pos
        | some s =>
          simp only
          split_ifs with h'
          · exact h'
          · exact one_pos
  · rintro ⟨a, ha, h1, h2⟩
    unfold startHook
    dsimp only
    rw [hs, if_neg]
    intro hc
    have := hc a ha h1
    omega

/-- Non-vacuity: `mpb --NTHREAD=4 foo.ctl` with an `atoi` that reads one digit. -/
example : startHook (fun s => (s.head?.map fun c => (c.toNat : ℤ) - 48).getD 0) (some ['2']) ["mpb".toList, "--NTHREAD=4".toList, "foo.ctl".toList] =
    some (4, ["mpb".toList, "foo.ctl".toList]) ∧ Apart ["mpb".toList, "--NTHREAD=4".toList, "foo.ctl".toList] := by
  constructor
  · decide
  · simp [Apart, isNthread]

/-- C120 is false for two options next to each other: the second is neither used nor taken out (mpb/mpb.c:105-113: the index moves on although the
arguments have moved down).  With `mpb --nthread=2 --nthread=4` two threads are used, and `--nthread=4` is left for libctl, which takes it for
the name of a control file. -/
theorem C120_adjacent_refuted (atoi : List Char → ℤ) (senthread : Option (List Char)) (h2 : atoi ['2'] = 2) :
    startHook atoi senthread ["mpb".toList, "--nthread=2".toList, "--nthread=4".toList] = some (2, ["mpb".toList, "--nthread=4".toList]) := by
  have e1 : isNthread "mpb".toList = false := by decide
  have e2 : isNthread "--nthread=2".toList = true := by decide
  have e3 : ("--nthread=2".toList).drop 10 = ['2'] := by decide
  simp only [startHook, nthreadLoop, e1, e2, e3, h2]
  simp

end Mpb.Util

import Verif.Util.Mpi
import Mathlib.Data.Finset.Interval
import Mathlib.Order.Interval.Finset.Nat
import Mathlib.Algebra.BigOperators.Group.Finset.Basic
import Mathlib.Algebra.Order.BigOperators.Group.Finset
import Mathlib.Logic.Relation
import Mathlib.Tactic.Linarith
import Mathlib.Tactic.Ring

/-!
# C27, C28, C29: process groups, global communication, critical sections
-/

namespace Mpb.Util

/-! ## C27 -/

/-- The ranks of group `g` when `sz` processes are divided into `n` groups. -/
def members (sz n g : ℕ) : Finset ℕ := (Finset.range sz).filter fun r => divideMPI sz r n = .ok g

theorem divideMPI_ok {sz n : ℕ} (hn : 1 ≤ n) (hle : n ≤ sz) (hmax : (sz - 1) * n ≤ intMax) {r : ℕ} (hr : r < sz) : divideMPI sz r n = .ok (r * n / sz) := by
  unfold divideMPI
  have h1 : ¬ ¬ ((n : ℤ) > 0) := by omega
  have h2 : ¬ ¬ ((n : ℤ) ≤ sz) := by omega
  have h3 : ¬ r * (n : ℤ).toNat > intMax := by
    have : r * n ≤ (sz - 1) * n := Nat.mul_le_mul_right _ (by omega)
    simp only [Int.toNat_natCast]
    omega
  rw [if_neg h1, if_neg h2, if_neg h3]
  simp

theorem members_eq {sz n g : ℕ} (hn : 1 ≤ n) (hle : n ≤ sz) (hmax : (sz - 1) * n ≤ intMax) (hg : g < n) :
    members sz n g = Finset.Ico ((g * sz + n - 1) / n) (((g + 1) * sz + n - 1) / n) := by
  ext r
  simp only [members, Finset.mem_filter, Finset.mem_range, Finset.mem_Ico]
  have hsz : 0 < sz := by omega
  have e : ∀ k, (k * sz + n - 1) / n ≤ r ↔ k * sz ≤ r * n := by
    intro k
    constructor
    · intro h
      have := (Nat.div_le_iff_le_mul_add_pred (by omega : 0 < n)).1 h
      rw [Nat.mul_comm n r] at this
      omega
    · intro h
      refine (Nat.div_le_iff_le_mul_add_pred (by omega : 0 < n)).2 ?_
      rw [Nat.mul_comm n r]
      omega
  have e' : r < ((g + 1) * sz + n - 1) / n ↔ r * n < (g + 1) * sz := by
    rw [← not_le, ← not_le, not_iff_not]; exact e (g + 1)
  rw [e g, e']
  constructor
  · rintro ⟨hr, h⟩
    rw [divideMPI_ok hn hle hmax hr] at h
    injection h with h
    exact ⟨(Nat.le_div_iff_mul_le hsz).1 (by omega), (Nat.div_lt_iff_lt_mul hsz).1 (by omega)⟩
  · rintro ⟨h1, h2⟩
    have hr : r < sz := by
      by_contra hc
      have h3 : sz * n ≤ r * n := Nat.mul_le_mul_right _ (by omega)
      have h4 : (g + 1) * sz ≤ n * sz := Nat.mul_le_mul_right _ (by omega)
      nlinarith
    refine ⟨hr, ?_⟩
    rw [divideMPI_ok hn hle hmax hr]
    congr 1
    have a1 := (Nat.le_div_iff_mul_le hsz).2 h1
    have a2 := (Nat.div_lt_iff_lt_mul hsz).2 h2
    omega

/-- C27: with MPI, dividing `sz` processes into `n` groups, `1 ≤ n ≤ sz`, gives every process a group number below `n`; groups are runs of consecutive ranks in increasing
order; no group is empty; and group sizes differ by at most one.  Proved as long as `(sz - 1) n` fits in a C `int`. -/
theorem C27_divide_partial {sz n : ℕ} (hn : 1 ≤ n) (hle : n ≤ sz) (hmax : (sz - 1) * n ≤ intMax) :
    (∀ r < sz, ∃ g < n, divideMPI sz r n = .ok g) ∧
    (∀ r r' g g', r ≤ r' → r' < sz → divideMPI sz r n = .ok g → divideMPI sz r' n = .ok g' → g ≤ g') ∧
    (∀ g < n, (members sz n g).Nonempty) ∧
    (∀ g < n, ∀ g' < n, (members sz n g).card ≤ (members sz n g').card + 1) := by
  have hsz : 0 < sz := by omega
  have bnd : ∀ g < n, (members sz n g).card * n + (n - 1) ≥ sz ∧ (members sz n g).card * n ≤ sz + (n - 1) := by
    intro g hg
    rw [members_eq hn hle hmax hg, Nat.card_Ico]
    obtain ⟨a, ha⟩ : ∃ a, a = (g * sz + n - 1) / n := ⟨_, rfl⟩
    obtain ⟨b, hb⟩ : ∃ b, b = ((g + 1) * sz + n - 1) / n := ⟨_, rfl⟩
    rw [← ha, ← hb]
    have a1 : a * n ≤ g * sz + n - 1 := by rw [ha]; exact Nat.div_mul_le_self _ _
    have a2 : g * sz + n - 1 < (a + 1) * n := by
      rw [ha, Nat.mul_comm _ n]; exact Nat.lt_mul_div_succ _ (by omega)
    have b1 : b * n ≤ (g + 1) * sz + n - 1 := by rw [hb]; exact Nat.div_mul_le_self _ _
    have b2 : (g + 1) * sz + n - 1 < (b + 1) * n := by
      rw [hb, Nat.mul_comm _ n]; exact Nat.lt_mul_div_succ _ (by omega)
    have hab : a ≤ b := by
      rw [ha, hb]
      exact Nat.div_le_div_right (by rw [Nat.add_mul]; omega)
    obtain ⟨d, rfl⟩ := Nat.exists_eq_add_of_le hab
    rw [Nat.add_sub_cancel_left]
    have e1 : (g + 1) * sz = g * sz + sz := by ring
    have e2 : (a + 1) * n = a * n + n := by ring
    have e3 : (a + d) * n = a * n + d * n := by ring
    have e4 : (a + d + 1) * n = a * n + d * n + n := by ring
    rw [e2] at a2
    rw [e1, e3] at b1
    rw [e1, e4] at b2
    omega
  refine ⟨fun r hr => ⟨r * n / sz, ?_, divideMPI_ok hn hle hmax hr⟩, fun r r' g g' h1 h2 h3 h4 => ?_, fun g hg => ?_, fun g hg g' hg' => ?_⟩
  · rw [Nat.div_lt_iff_lt_mul hsz, Nat.mul_comm]
    exact Nat.mul_lt_mul_of_pos_left hr hn
  · rw [divideMPI_ok hn hle hmax (by omega)] at h3 h4
    injection h3 with h3
    injection h4 with h4
    rw [← h3, ← h4]
    exact Nat.div_le_div_right (Nat.mul_le_mul_right _ h1)
  · rw [← Finset.card_pos]
    by_contra hc
    have := (bnd g hg).1
    have h0 : (members sz n g).card = 0 := by omega
    rw [h0] at this
    -- then sz ≤ n - 1
    omega
  · have h1 := (bnd g hg).2
    have h2 := (bnd g' hg').1
    by_contra hc
    have : ((members sz n g').card + 2) * n ≤ (members sz n g).card * n := Nat.mul_le_mul_right _ (by omega)
    rw [Nat.add_mul] at this
    omega

/-- With MPI, a request for no groups, a negative number, or more groups than processes ends the program. -/
theorem C27_rejects (sz r : ℕ) (n : ℤ) : divideMPI sz r n = .die ↔ n ≤ 0 ∨ n > sz := by
  unfold divideMPI
  by_cases h1 : ¬ n > 0
  · simp only [if_pos h1, true_iff]; omega
  · by_cases h2 : ¬ n ≤ sz
    · simp only [if_neg h1, if_pos h2, true_iff]; omega
    · simp only [if_neg h1, if_neg h2]
      split
      · simp; omega
      · simp; omega

/-- The bound on the process count is met by every run of up to 46341 processes, whatever the number of groups. -/
theorem C27_bound {sz n : ℕ} (hsz : sz ≤ 46341) (hle : n ≤ sz) : (sz - 1) * n ≤ intMax := by
  calc (sz - 1) * n ≤ 46340 * 46341 := Nat.mul_le_mul (by omega) (by omega)
    _ ≤ intMax := by decide

example : ∃ sz n : ℕ, 1 ≤ n ∧ n ≤ sz ∧ (sz - 1) * n ≤ intMax ∧ (members sz n 2).card = 2 ∧ (members sz n 0).card = 3 := ⟨8, 3, by decide⟩

/-- C27 fails for large runs: with 65536 processes in 65536 groups the product `rank * numgroups` overflows `int`. -/
theorem C27_overflow_refuted : ∃ sz n r : ℕ, 1 ≤ n ∧ n ≤ sz ∧ r < sz ∧ divideMPI sz r n = .ub := ⟨65536, 65536, 65535, by decide⟩

/-- C27 fails without MPI: there is one process, so one group is the only possible division, but the check (mpi_utils.c:87) is inverted: asking for one group ends the program
and every other request is accepted. -/
theorem C27_serial_refuted : divideSerial 1 = .die ∧ ∀ n : ℤ, n ≠ 1 → divideSerial n = .ok 0 :=
  ⟨rfl, fun n hn => by simp [divideSerial, hn]⟩

/-! ## C28 -/

/-- What the brackets are meant to do: a stack of communicators. -/
inductive Spec.CommTrace : List CommOp → Comm → List Comm → ℕ → Prop
  | nil : Spec.CommTrace [] .world [] 0
  | divide {os c st k} : Spec.CommTrace os c st k → Spec.CommTrace (os ++ [.divide]) (.group k) st (k + 1)
  | endDiv {os c st k} : Spec.CommTrace os c st k → Spec.CommTrace (os ++ [.endDiv]) .world st k
  | beginG {os c st k} : Spec.CommTrace os c st k → Spec.CommTrace (os ++ [.beginG]) .world (c :: st) k
  | endG {os c d st k} : Spec.CommTrace os c (d :: st) k → Spec.CommTrace (os ++ [.endG]) d st k

theorem commRun_append (os os' : List CommOp) (s : CommState) : commRun s (os ++ os') = (commRun s os).bind fun s => commRun s os' := by
  induction os generalizing s with
  | nil => rfl
  | cons o os ih =>
    simp only [List.cons_append, commRun]
    cases commStep s o with
    | none => rfl
    | some s => exact ih s

/-- What holds after every history of calls: handles are distinct and live, and at most one of the two variables holds a group. -/
structure CommInv (s : CommState) : Prop where
  nodup : s.live.Nodup
  fresh : ∀ k, .group k ∈ s.live → k < s.splits
  comm : s.comm = .world ∨ (s.comm ∈ s.live ∧ s.save = .world)
  save : s.save = .world ∨ (s.save ∈ s.live ∧ s.comm = .world)
  noworld : .world ∉ s.live

theorem endDivide_inv {s : CommState} (h : CommInv s) : ∃ s', endDivide s = some s' ∧ CommInv s' ∧ s'.comm = .world ∧ s'.save = .world ∧ s'.splits = s.splits ∧
    s'.live = (s.live.erase s.comm).erase s.save := by
  obtain ⟨c, sv, l, k⟩ := s
  obtain ⟨h1, h2, h3, h4, h5⟩ := h
  simp only at h1 h2 h3 h4 h5
  unfold endDivide commFree
  simp only
  rcases h3 with rfl | ⟨h3, rfl⟩
  · rcases h4 with rfl | ⟨h4, -⟩
    · have e : (l.erase Comm.world).erase Comm.world = l := by rw [List.erase_of_not_mem h5, List.erase_of_not_mem h5]
      exact ⟨_, rfl, ⟨h1, h2, Or.inl rfl, Or.inl rfl, h5⟩, rfl, rfl, rfl, e.symm⟩
    · have hne : sv ≠ .world := fun e => h5 (e ▸ h4)
      simp only [ne_eq, not_true_eq_false, if_false, Option.bind_some, hne, not_false_eq_true, if_true, h4, Option.map_some]
      refine ⟨_, rfl, ⟨h1.erase _, fun k' hk => h2 k' (List.mem_of_mem_erase hk), Or.inl rfl, Or.inl rfl, fun hk => h5 (List.mem_of_mem_erase hk)⟩, rfl, rfl, rfl, ?_⟩
      rw [List.erase_of_not_mem h5]
  · have hne : c ≠ .world := fun e => h5 (e ▸ h3)
    simp only [ne_eq, hne, not_false_eq_true, if_true, h3, Option.bind_some, not_true_eq_false, if_false, Option.map_some]
    refine ⟨_, rfl, ⟨h1.erase _, fun k' hk => h2 k' (List.mem_of_mem_erase hk), Or.inl rfl, Or.inl rfl, fun hk => h5 (List.mem_of_mem_erase hk)⟩, rfl, rfl, rfl, ?_⟩
    rw [List.erase_of_not_mem (fun hk => h5 (List.mem_of_mem_erase hk))]

theorem commStep_inv {s : CommState} (h : CommInv s) (o : CommOp) : ∃ s', commStep s o = some s' ∧ CommInv s' := by
  cases o with
  | divide =>
    obtain ⟨s', e, i, hc, hs, hk, -⟩ := endDivide_inv h
    refine ⟨{ s' with comm := .group s'.splits, live := .group s'.splits :: s'.live, splits := s'.splits + 1 }, by simp only [commStep, divide, e, Option.map_some], ?_⟩
    refine ⟨?_, ?_, Or.inr ⟨List.mem_cons_self, hs⟩, Or.inl hs, ?_⟩
    · exact List.nodup_cons.2 ⟨fun hm => by have := i.fresh _ hm; omega, i.nodup⟩
    · intro k hm
      rcases List.mem_cons.1 hm with e | e
      · injection e with e; simp only; omega
      · have := i.fresh k e; simp only; omega
    · intro hm
      rcases List.mem_cons.1 hm with e | e
      · cases e
      · exact i.noworld e
  | beginG =>
    refine ⟨_, rfl, h.nodup, h.fresh, Or.inl rfl, ?_, h.noworld⟩
    rcases h.comm with e | e
    · exact Or.inl e
    · exact Or.inr ⟨e.1, rfl⟩
  | endG =>
    refine ⟨_, rfl, h.nodup, h.fresh, ?_, Or.inl rfl, h.noworld⟩
    rcases h.save with e | e
    · exact Or.inl e
    · exact Or.inr ⟨e.1, rfl⟩
  | endDiv =>
    obtain ⟨s', e, i, -⟩ := endDivide_inv h
    exact ⟨s', e, i⟩

/-- C28, safety: no history of calls, paired or not, frees a communicator twice, frees `MPI_COMM_WORLD`, or leaves a freed communicator in use. -/
theorem C28_no_double_free (os : List CommOp) : ∃ s, commRun commInit os = some s ∧ (s.comm = .world ∨ s.comm ∈ s.live) := by
  have : ∀ (os : List CommOp) (s : CommState), CommInv s → ∃ s', commRun s os = some s' ∧ CommInv s' := by
    intro os
    induction os with
    | nil => intro s h; exact ⟨s, rfl, h⟩
    | cons o os ih =>
      intro s h
      obtain ⟨s1, e, i⟩ := commStep_inv h o
      obtain ⟨s2, e2, i2⟩ := ih s1 i
      exact ⟨s2, by rw [commRun, e]; exact e2, i2⟩
  obtain ⟨s, e, i⟩ := this os commInit ⟨List.nodup_nil, fun k h => by simp [commInit] at h, Or.inl rfl, Or.inl rfl, by simp [commInit]⟩
  exact ⟨s, e, i.comm.imp id And.left⟩

/-- A history in which brackets are paired and not nested, and processes are divided only outside them; the flag says whether a bracket is open. -/
inductive Spec.Flat : List CommOp → Bool → Prop
  | nil : Spec.Flat [] false
  | divide {os} : Spec.Flat os false → Spec.Flat (os ++ [.divide]) false
  | endDiv {os} : Spec.Flat os false → Spec.Flat (os ++ [.endDiv]) false
  | beginG {os} : Spec.Flat os false → Spec.Flat (os ++ [.beginG]) true
  | endG {os} : Spec.Flat os true → Spec.Flat (os ++ [.endG]) false

/-- C28: for every history of un-nested brackets, with any number of divisions outside them, the communicator in use is the one the stack semantics gives: inside a bracket the
world, after it the group in use before it.  Besides, nothing is leaked: the live communicators are exactly the group in use or saved. -/
theorem C28_brackets_partial {os : List CommOp} {b : Bool} (hf : Spec.Flat os b) :
    ∃ s c st k, commRun commInit os = some s ∧ Spec.CommTrace os c st k ∧ s.comm = c ∧ st.length = b.toNat ∧
      (∀ x, x ∈ s.live ↔ x ≠ .world ∧ (x = s.comm ∨ x = s.save)) := by
  suffices H : ∃ s c st k, commRun commInit os = some s ∧ Spec.CommTrace os c st k ∧ s.comm = c ∧ st.length = b.toNat ∧
      (∀ x, x ∈ s.live ↔ x ≠ .world ∧ (x = s.comm ∨ x = s.save)) ∧ CommInv s ∧ s.splits = k ∧ (if b then st = [s.save] ∧ c = .world else s.save = .world) by
    obtain ⟨s, c, st, k, h1, h2, h3, h4, h5, -⟩ := H
    exact ⟨s, c, st, k, h1, h2, h3, h4, h5⟩
  induction hf with
  | nil =>
    exact ⟨commInit, .world, [], 0, rfl, .nil, rfl, rfl, fun x => by simp [commInit],
      ⟨List.nodup_nil, fun k h => by simp [commInit] at h, Or.inl rfl, Or.inl rfl, by simp [commInit]⟩, rfl, rfl⟩
  | divide hf ih =>
    obtain ⟨s, c, st, k, h1, h2, h3, h4, h5, h6, h7, h8⟩ := ih
    obtain ⟨s', e, i, hc, hs, hk, hl⟩ := endDivide_inv h6
    obtain ⟨s'', e', i'⟩ := commStep_inv h6 .divide
    have e'' : s'' = { s' with comm := .group s'.splits, live := .group s'.splits :: s'.live, splits := s'.splits + 1 } := by
      simp only [commStep, divide, e, Option.map_some, Option.some.injEq] at e'
      exact e'.symm
    refine ⟨s'', .group k, st, k + 1, ?_, .divide h2, ?_, h4, ?_, i', ?_, ?_⟩
    · rw [commRun_append, h1, Option.bind_some, commRun, e']; rfl
    · rw [e'', ← h7, ← hk]
    · intro x
      rw [e'']
      simp only [List.mem_cons, hs, hl, List.mem_erase_of_ne, (h6.nodup.erase s.comm).mem_erase_iff, h6.nodup.mem_erase_iff, h5]
      constructor
      · rintro (rfl | ⟨q1, q2, q3, q4⟩)
        · simp
        · rcases q4 with q4 | q4
          · exact absurd q4 q2
          · exact absurd q4 q1
      · rintro ⟨q1, q2⟩
        rcases q2 with q2 | q2
        · exact Or.inl q2
        · exact absurd q2 q1
    · rw [e'']; simp only; omega
    · rw [e'']; exact hs
  | endDiv hf ih =>
    obtain ⟨s, c, st, k, h1, h2, h3, h4, h5, h6, h7, h8⟩ := ih
    obtain ⟨s', e, i, hc, hs, hk, hl⟩ := endDivide_inv h6
    refine ⟨s', .world, st, k, ?_, .endDiv h2, hc, h4, ?_, i, by omega, hs⟩
    · rw [commRun_append, h1, Option.bind_some, commRun, commStep, e]; rfl
    · intro x
      simp only [hs, hl, hc, (h6.nodup.erase s.comm).mem_erase_iff, h6.nodup.mem_erase_iff, h5]
      constructor
      · rintro ⟨q1, q2, q3, q4⟩
        rcases q4 with q4 | q4
        · exact absurd q4 q2
        · exact absurd q4 q1
      · rintro ⟨q1, q2⟩
        rcases q2 with q2 | q2 <;> exact absurd q2 q1
  | beginG hf ih =>
    obtain ⟨s, c, st, k, h1, h2, h3, h4, h5, h6, h7, h8⟩ := ih
    obtain ⟨s'', e', i'⟩ := commStep_inv h6 .beginG
    obtain rfl : beginGlobal s = s'' := by simpa [commStep] using e'
    have hst : st = [] := List.length_eq_zero_iff.1 h4
    have h8 : s.save = .world := by simpa using h8
    refine ⟨_, .world, c :: st, k, ?_, .beginG h2, rfl, by simp [hst], ?_, i', h7, ?_⟩
    · rw [commRun_append, h1, Option.bind_some, commRun, commStep]; rfl
    · intro x
      simp only [beginGlobal, h5, h8]
      constructor
      · rintro ⟨q1, q2 | q2⟩
        · exact ⟨q1, Or.inr q2⟩
        · exact absurd q2 q1
      · rintro ⟨q1, q2 | q2⟩
        · exact absurd q2 q1
        · exact ⟨q1, Or.inl q2⟩
    · simp [hst, beginGlobal, h3]
  | endG hf ih =>
    obtain ⟨s, c, st, k, h1, h2, h3, h4, h5, h6, h7, h8⟩ := ih
    obtain ⟨s'', e', i'⟩ := commStep_inv h6 .endG
    obtain rfl : endGlobal s = s'' := by simpa [commStep] using e'
    obtain ⟨h8, h9⟩ : st = [s.save] ∧ c = .world := by simpa using h8
    subst h8
    refine ⟨_, s.save, [], k, ?_, .endG h2, rfl, rfl, ?_, i', h7, ?_⟩
    · rw [commRun_append, h1, Option.bind_some, commRun, commStep]; rfl
    · intro x
      simp only [endGlobal, h5, h3, h9]
      constructor
      · rintro ⟨q1, q2 | q2⟩
        · exact absurd q2 q1
        · exact ⟨q1, Or.inl q2⟩
      · rintro ⟨q1, q2 | q2⟩
        · exact ⟨q1, Or.inr q2⟩
        · exact absurd q2 q1
    · simp [endGlobal]

example : Spec.Flat [.divide, .beginG, .endG, .beginG] true := .beginG (.endG (.beginG (.divide .nil)))

/-- C28 fails for nested brackets: after `divide; begin; begin; end; end` the program communicates with the world, while the stack semantics gives the group; and the
group's communicator is lost (never freed). -/
theorem C28_nested_refuted : ∃ s, commRun commInit [.divide, .beginG, .beginG, .endG, .endG, .endDiv] = some s ∧ s.live = [.group 0] ∧
    (∃ s', commRun commInit [.divide, .beginG, .beginG, .endG, .endG] = some s' ∧ s'.comm = .world) ∧
    Spec.CommTrace [.divide, .beginG, .beginG, .endG, .endG] (.group 0) [] 1 :=
  ⟨_, rfl, rfl, ⟨_, rfl, rfl⟩, .endG (.endG (.beginG (.beginG (.divide .nil))))⟩

/-- C28 fails when the processes are divided again inside a bracket: closing the bracket drops the new group. -/
theorem C28_divide_inside_refuted : ∃ s, commRun commInit [.beginG, .divide, .endG] = some s ∧ s.comm = .world ∧ s.live = [.group 0] :=
  ⟨_, rfl, rfl, rfl⟩

/-! ## C29 -/

/-- Messages received so far by a process. -/
def recvd (p : Proc) : ℕ := if p.ph = .out then p.sec else p.sec + 1

/-- Messages sent so far. -/
def sent (p : Proc) : ℕ := if p.ph = .sending then p.sec + 1 else p.sec

structure WInv (P : ℕ) (tags : List ℤ) (w : World) : Prop where
  le : ∀ r, (w.proc r).sec ≤ tags.length
  lt : ∀ r, (w.proc r).ph ≠ .out → (w.proc r).sec < tags.length
  last : ∀ r, r + 1 = P → (w.proc r).ph ≠ .sending
  ord : ∀ r, r + 1 < P → recvd (w.proc (r + 1)) ≤ sent (w.proc r)
  chan : ∀ r, r + 1 < P → w.chan r = (tags.take (sent (w.proc r))).drop (recvd (w.proc (r + 1)))

theorem chan_head {P : ℕ} {tags : List ℤ} {w : World} (i : WInv P tags w) {r : ℕ} (hr : r + 1 < P) (hp : (w.proc (r + 1)).ph = .out)
    (hs : (w.proc (r + 1)).sec < tags.length) (hlt : (w.proc (r + 1)).sec < sent (w.proc r)) :
    w.chan r = tags[(w.proc (r + 1)).sec] :: (tags.take (sent (w.proc r))).drop ((w.proc (r + 1)).sec + 1) := by
  have hrc : recvd (w.proc (r + 1)) = (w.proc (r + 1)).sec := by simp [recvd, hp]
  rw [i.chan r hr, hrc, List.drop_eq_getElem_cons (by rw [List.length_take]; omega), List.getElem_take]

theorem winv_step {P : ℕ} {tags : List ℤ} {sync : Bool} {w w' : World} (i : WInv P tags w) (st : Step P tags sync w w') : WInv P tags w' := by
  cases st with
  | enter0 hP hp hs =>
    have e : ∀ r, (Function.update w.proc 0 ⟨(w.proc 0).sec, .inside⟩ r).sec = (w.proc r).sec := fun r => by
      by_cases h : r = 0
      · subst h; simp
      · simp [h]
    have es : ∀ r, sent (Function.update w.proc 0 ⟨(w.proc 0).sec, .inside⟩ r) = sent (w.proc r) := fun r => by
      by_cases h : r = 0
      · subst h; simp [sent, hp]
      · simp [h]
    have er : ∀ r, recvd (Function.update w.proc 0 ⟨(w.proc 0).sec, .inside⟩ (r + 1)) = recvd (w.proc (r + 1)) := fun r => by simp
    refine ⟨fun r => by simp only; rw [e]; exact i.le r, fun r hr => ?_, fun r hr => ?_, fun r hr => ?_, fun r hr => ?_⟩
    · simp only at hr ⊢
      rw [e]
      by_cases h : r = 0
      · subst h; exact hs
      · rw [Function.update_of_ne h] at hr; exact i.lt r hr
    · simp only
      by_cases h : r = 0
      · subst h; simp
      · rw [Function.update_of_ne h]; exact i.last r hr
    · simp only; rw [es, er]; exact i.ord r hr
    · simp only; rw [es, er]; exact i.chan r hr
  | enter r hr hp hs hm =>
    have hrc : recvd (w.proc (r + 1)) = (w.proc (r + 1)).sec := by simp [recvd, hp]
    have hlt : (w.proc (r + 1)).sec < sent (w.proc r) := by
      by_contra hc
      rw [i.chan r hr, hrc, List.drop_of_length_le (by rw [List.length_take]; omega)] at hm
      simp at hm
    have hch := chan_head i hr hp hs hlt
    have e : ∀ r', (Function.update w.proc (r + 1) ⟨(w.proc (r + 1)).sec, .inside⟩ r').sec = (w.proc r').sec := fun r' => by
      by_cases h : r' = r + 1
      · subst h; simp
      · simp [h]
    have es : ∀ r', sent (Function.update w.proc (r + 1) ⟨(w.proc (r + 1)).sec, .inside⟩ r') = sent (w.proc r') := fun r' => by
      by_cases h : r' = r + 1
      · subst h; simp [sent, hp]
      · simp [h]
    refine ⟨fun r' => by simp only; rw [e]; exact i.le r', fun r' hr' => ?_, fun r' hr' => ?_, fun r' hr' => ?_, fun r' hr' => ?_⟩
    · simp only at hr' ⊢
      rw [e]
      by_cases h : r' = r + 1
      · subst h; exact hs
      · rw [Function.update_of_ne h] at hr'; exact i.lt r' hr'
    · simp only
      by_cases h : r' = r + 1
      · subst h; simp
      · rw [Function.update_of_ne h]; exact i.last r' hr'
    · simp only; rw [es]
      by_cases h : r' = r
      · subst h; simp [recvd]; omega
      · rw [Function.update_of_ne (by omega)]; exact i.ord r' hr'
    · simp only; rw [es]
      by_cases h : r' = r
      · subst h
        rw [Function.update_self, Function.update_self, hch, List.erase_cons_head]
        simp [recvd]
      · rw [Function.update_of_ne h, Function.update_of_ne (by omega : r' + 1 ≠ r + 1)]; exact i.chan r' hr'
  | leaveLast r hr hp hl =>
    have er : ∀ r', recvd (Function.update w.proc r ⟨(w.proc r).sec + 1, .out⟩ r') = recvd (w.proc r') := fun r' => by
      by_cases h : r' = r
      · subst h; simp [recvd, hp]
      · simp [h]
    refine ⟨fun r' => ?_, fun r' hr' => ?_, fun r' hr' => ?_, fun r' hr' => ?_, fun r' hr' => ?_⟩
    · simp only
      by_cases h : r' = r
      · subst h; rw [Function.update_self]; exact i.lt r' (by simp [hp])
      · rw [Function.update_of_ne h]; exact i.le r'
    · simp only at hr' ⊢
      by_cases h : r' = r
      · subst h; simp at hr'
      · rw [Function.update_of_ne h] at hr' ⊢; exact i.lt r' hr'
    · simp only
      by_cases h : r' = r
      · subst h; simp
      · rw [Function.update_of_ne h]; exact i.last r' hr'
    · simp only; rw [er, Function.update_of_ne (by omega)]; exact i.ord r' hr'
    · simp only; rw [er, Function.update_of_ne (by omega)]; exact i.chan r' hr'
  | post r hr hp hl hs =>
    have er : ∀ r', recvd (Function.update w.proc r ⟨(w.proc r).sec, .sending⟩ r') = recvd (w.proc r') := fun r' => by
      by_cases h : r' = r
      · subst h; simp [recvd, hp]
      · simp [h]
    have e : ∀ r', (Function.update w.proc r ⟨(w.proc r).sec, .sending⟩ r').sec = (w.proc r').sec := fun r' => by
      by_cases h : r' = r
      · subst h; simp
      · simp [h]
    have hsr : sent (w.proc r) = (w.proc r).sec := by simp [sent, hp]
    refine ⟨fun r' => by simp only; rw [e]; exact i.le r', fun r' hr' => ?_, fun r' hr' => ?_, fun r' hr' => ?_, fun r' hr' => ?_⟩
    · simp only at hr' ⊢
      rw [e]
      by_cases h : r' = r
      · subst h; exact hs
      · rw [Function.update_of_ne h] at hr'; exact i.lt r' hr'
    · simp only
      by_cases h : r' = r
      · omega
      · rw [Function.update_of_ne h]; exact i.last r' hr'
    · simp only; rw [er]
      by_cases h : r' = r
      · subst h; rw [Function.update_self]; have := i.ord r' hr'; simp only [sent, if_true]; omega
      · rw [Function.update_of_ne h]; exact i.ord r' hr'
    · simp only; rw [er]
      by_cases h : r' = r
      · subst h
        have h1 := i.ord r' hr'
        rw [Function.update_self, Function.update_self, i.chan r' hr', hsr]
        simp only [sent, if_true]
        rw [List.take_succ_eq_append_getElem hs, List.drop_append_of_le_length (by rw [List.length_take]; omega)]
      · rw [Function.update_of_ne h, Function.update_of_ne h]; exact i.chan r' hr'
  | finish r hr hp hc =>
    have er : ∀ r', recvd (Function.update w.proc r ⟨(w.proc r).sec + 1, .out⟩ r') = recvd (w.proc r') := fun r' => by
      by_cases h : r' = r
      · subst h; simp [recvd, hp]
      · simp [h]
    have es : ∀ r', sent (Function.update w.proc r ⟨(w.proc r).sec + 1, .out⟩ r') = sent (w.proc r') := fun r' => by
      by_cases h : r' = r
      · subst h; simp [sent, hp]
      · simp [h]
    refine ⟨fun r' => ?_, fun r' hr' => ?_, fun r' hr' => ?_, fun r' hr' => ?_, fun r' hr' => ?_⟩
    · simp only
      by_cases h : r' = r
      · subst h; rw [Function.update_self]; exact i.lt r' (by simp [hp])
      · rw [Function.update_of_ne h]; exact i.le r'
    · simp only at hr' ⊢
      by_cases h : r' = r
      · subst h; simp at hr'
      · rw [Function.update_of_ne h] at hr' ⊢; exact i.lt r' hr'
    · simp only
      by_cases h : r' = r
      · subst h; simp
      · rw [Function.update_of_ne h]; exact i.last r' hr'
    · simp only; rw [er, es]; exact i.ord r' hr'
    · simp only; rw [er, es]; exact i.chan r' hr'

theorem winv_reach {P : ℕ} {tags : List ℤ} {sync : Bool} {w : World} (h : Reach P tags sync w) : WInv P tags w := by
  induction h with
  | init =>
    exact ⟨fun r => Nat.zero_le _, fun r h => by simp [worldInit] at h, fun r _ => by simp [worldInit], fun r _ => by simp [worldInit, recvd, sent],
      fun r _ => by simp [worldInit, recvd, sent]⟩
  | step _ st ih => exact winv_step ih st

/-- C29, one section: whatever the number of processes, the tags (distinct or not) and the schedule, when a process is inside a critical section, or past it, every process
of lower rank has left that section. -/
theorem C29_order {P : ℕ} {tags : List ℤ} {sync : Bool} {w : World} (h : Reach P tags sync w) {r r' k : ℕ} (hlt : r' < r) (hr : r < P)
    (hk : ((w.proc r).sec = k ∧ (w.proc r).ph ≠ .out) ∨ k < (w.proc r).sec) :
    ((w.proc r').sec = k ∧ (w.proc r').ph = .sending) ∨ k < (w.proc r').sec := by
  have i := winv_reach h
  have key : ∀ r, r < P → k < recvd (w.proc r) → ∀ r' < r, k < sent (w.proc r') := by
    intro r
    induction r with
    | zero => intro _ _ r' h; omega
    | succ r ih =>
      intro hr hk r' hr'
      have h1 := i.ord r hr
      by_cases he : r' = r
      · subst he; omega
      · refine ih (by omega) ?_ r' (by omega)
        have : sent (w.proc r) ≤ recvd (w.proc r) := by
          unfold sent recvd
          split_ifs with a b <;> first | omega | (rw [a] at b; simp at b)
        omega
  have hk' : k < recvd (w.proc r) := by
    unfold recvd
    rcases hk with ⟨h1, h2⟩ | h1
    · rw [if_neg h2]; omega
    · split_ifs <;> omega
  have := key r hr hk' r' hlt
  unfold sent at this
  split_ifs at this with a
  · by_cases hc : (w.proc r').sec = k
    · exact Or.inl ⟨hc, a⟩
    · exact Or.inr (by omega)
  · exact Or.inr this

/-- C29, exclusion: two processes are never inside the same critical section. -/
theorem C29_exclusive {P : ℕ} {tags : List ℤ} {sync : Bool} {w : World} (h : Reach P tags sync w) {r r' : ℕ} (hr : r < P) (hr' : r' < P)
    (h1 : (w.proc r).ph = .inside) (h2 : (w.proc r').ph = .inside) (hs : (w.proc r).sec = (w.proc r').sec) : r = r' := by
  by_contra hne
  rcases Nat.lt_or_gt_of_ne hne with hlt | hlt
  · rcases C29_order h (k := (w.proc r').sec) hlt hr' (Or.inl ⟨rfl, by simp [h2]⟩) with ⟨-, e⟩ | e
    · rw [h1] at e; cases e
    · omega
  · rcases C29_order h (k := (w.proc r).sec) hlt hr (Or.inl ⟨rfl, by simp [h1]⟩) with ⟨-, e⟩ | e
    · rw [h2] at e; cases e
    · omega

/-- All processes are through all sections. -/
def Final (P : ℕ) (tags : List ℤ) (w : World) : Prop := ∀ r < P, w.proc r = ⟨tags.length, .out⟩

/-- C29, no deadlock: in every reachable state that is not final some process can go on, even with an MPI in which every send waits for its receiver. -/
theorem C29_progress {P : ℕ} {tags : List ℤ} {sync : Bool} {w : World} (h : Reach P tags sync w) (hf : ¬ Final P tags w) : ∃ w', Step P tags true w w' := by
  have i := winv_reach h
  by_cases hin : ∃ r < P, (w.proc r).ph = .inside
  · obtain ⟨r, hr, hp⟩ := hin
    by_cases hl : r = P - 1
    · exact ⟨_, .leaveLast w r hr hp hl⟩
    · exact ⟨_, .post w r hr hp hl (i.lt r (by simp [hp]))⟩
  by_cases hse : ∃ r < P, (w.proc r).ph = .sending ∧ w.chan r = []
  · obtain ⟨r, hr, hp, hc⟩ := hse
    exact ⟨_, .finish w r hr hp (fun _ => hc)⟩
  -- the smallest section number
  have hne : ∃ r < P, (w.proc r).sec < tags.length := by
    by_contra hc
    push Not at hc
    refine hf fun r hr => ?_
    have h1 := hc r hr
    have h2 := i.le r
    have h3 : (w.proc r).ph = .out := by
      by_contra hp
      have := i.lt r hp
      omega
    have h4 : (w.proc r).sec = tags.length := by omega
    rw [← h4, ← h3]
  have hex : ∃ k, ∃ r < P, (w.proc r).sec = k := by
    obtain ⟨r, hr, _⟩ := hne
    exact ⟨_, r, hr, rfl⟩
  classical
  obtain ⟨k, hk⟩ : ∃ k, k = Nat.find hex := ⟨_, rfl⟩
  have hk1 : ∃ r, r < P ∧ (w.proc r).sec = k := hk ▸ Nat.find_spec hex
  have hmin : ∀ r < P, k ≤ (w.proc r).sec := fun r hr => hk ▸ Nat.find_min' hex ⟨r, hr, rfl⟩
  have hklt : k < tags.length := by
    obtain ⟨r, hr, hlt⟩ := hne
    have := hmin r hr
    omega
  obtain ⟨r, hr⟩ : ∃ r, r = Nat.find hk1 := ⟨_, rfl⟩
  have hr1 : r < P ∧ (w.proc r).sec = k := hr ▸ Nat.find_spec hk1
  have hr2 : ∀ r' < r, k < (w.proc r').sec := fun r' h' => by
    have h1 : ¬ (r' < P ∧ (w.proc r').sec = k) := Nat.find_min hk1 (hr ▸ h')
    have h2 := hmin r' (by omega)
    by_contra hc
    exact h1 ⟨by omega, by omega⟩
  obtain ⟨hrP, hrk⟩ := hr1
  have enter : ∀ q, q + 1 < P → (w.proc (q + 1)).ph = .out → (w.proc (q + 1)).sec = k → k < sent (w.proc q) → ∃ w', Step P tags true w w' := by
    intro q hq hp hs hlt
    have hs' : (w.proc (q + 1)).sec < tags.length := by omega
    refine ⟨_, .enter w q hq hp hs' ?_⟩
    rw [chan_head i hq hp hs' (by omega)]
    exact List.mem_cons_self
  cases hph : (w.proc r).ph with
  | inside => exact absurd ⟨r, hrP, hph⟩ hin
  | out =>
    cases r with
    | zero => exact ⟨_, .enter0 w hrP hph (by omega)⟩
    | succ q =>
      refine enter q hrP hph hrk ?_
      have := hr2 q (by omega)
      unfold sent
      split_ifs <;> omega
  | sending =>
    have hnl : r + 1 < P := by
      have : r + 1 ≠ P := fun e => i.last r e hph
      omega
    have hcne : w.chan r ≠ [] := fun e => hse ⟨r, hrP, hph, e⟩
    have hsr : sent (w.proc r) = k + 1 := by simp [sent, hph, hrk]
    have hrc : recvd (w.proc (r + 1)) ≤ k := by
      by_contra hc
      rw [i.chan r hnl, hsr] at hcne
      exact hcne (List.drop_of_length_le (by rw [List.length_take]; omega))
    have hs1 := hmin (r + 1) hnl
    have hpo : (w.proc (r + 1)).ph = .out := by
      by_contra hp
      unfold recvd at hrc
      rw [if_neg hp] at hrc
      omega
    have hse1 : (w.proc (r + 1)).sec = k := by
      unfold recvd at hrc
      rw [if_pos hpo] at hrc
      omega
    exact enter r hnl hpo hse1 (by omega)

/-- How far a process has come. -/
def done (p : Proc) : ℕ := 3 * p.sec + match p.ph with
  | .out => 0
  | .inside => 1
  | .sending => 2

def total (P : ℕ) (w : World) : ℕ := ∑ r ∈ Finset.range P, done (w.proc r)

theorem total_update {P : ℕ} (f : ℕ → Proc) (c : ℕ → List ℤ) (c' : ℕ → List ℤ) {r : ℕ} (hr : r < P) (p : Proc) (h : done (f r) < done p) :
    total P ⟨f, c⟩ < total P ⟨Function.update f r p, c'⟩ := by
  unfold total
  refine Finset.sum_lt_sum (fun r' _ => ?_) ⟨r, Finset.mem_range.2 hr, by simpa using h⟩
  by_cases e : r' = r
  · subst e; simpa using h.le
  · simp [e]

theorem step_total {P : ℕ} {tags : List ℤ} {sync : Bool} {w w' : World} (st : Step P tags sync w w') : total P w < total P w' := by
  cases st with
  | enter0 hP hp hs => exact total_update _ _ _ hP _ (by simp [done, hp])
  | enter r hr hp hs hm => exact total_update _ _ _ hr _ (by simp [done, hp])
  | leaveLast r hr hp hl => exact total_update _ _ _ hr _ (by simp [done, hp]; omega)
  | post r hr hp hl hs => exact total_update _ _ _ hr _ (by simp [done, hp])
  | finish r hr hp hc => exact total_update _ _ _ hr _ (by simp [done, hp]; omega)

theorem total_le {P : ℕ} {tags : List ℤ} {w : World} (i : WInv P tags w) : total P w ≤ 3 * tags.length * P := by
  unfold total
  calc ∑ r ∈ Finset.range P, done (w.proc r) ≤ ∑ _r ∈ Finset.range P, 3 * tags.length := by
        refine Finset.sum_le_sum fun r _ => ?_
        have h1 := i.le r
        have h2 := i.lt r
        unfold done
        cases hp : (w.proc r).ph with
        | out => simp only; omega
        | inside => have := h2 (by simp [hp]); simp only; omega
        | sending => have := h2 (by simp [hp]); simp only; omega
    _ = 3 * tags.length * P := by simp [Nat.mul_comm]

/-- C29, completion: from every reachable state the processes can all get through all the sections, and no schedule goes on for ever: each step brings a bounded count forward. -/
theorem C29_completes {P : ℕ} {tags : List ℤ} {sync : Bool} {w : World} (h : Reach P tags sync w) :
    (∃ w', Relation.ReflTransGen (Step P tags sync) w w' ∧ Final P tags w') ∧
    (∀ n (path : ℕ → World), path 0 = w → (∀ i < n, Step P tags sync (path i) (path (i + 1))) → n ≤ 3 * tags.length * P) := by
  have weaken : ∀ {w w'}, Step P tags true w w' → Step P tags sync w w' := by
    intro w w' st
    cases st with
    | enter0 hP hp hs => exact .enter0 w hP hp hs
    | enter r hr hp hs hm => exact .enter w r hr hp hs hm
    | leaveLast r hr hp hl => exact .leaveLast w r hr hp hl
    | post r hr hp hl hs => exact .post w r hr hp hl hs
    | finish r hr hp hc => exact .finish w r hr hp (fun _ => hc rfl)
  constructor
  · have : ∀ m w, Reach P tags sync w → 3 * tags.length * P - total P w ≤ m → ∃ w', Relation.ReflTransGen (Step P tags sync) w w' ∧ Final P tags w' := by
      intro m
      induction m with
      | zero =>
        intro w h hm
        by_cases hf : Final P tags w
        · exact ⟨w, .refl, hf⟩
        · obtain ⟨w', st⟩ := C29_progress h hf
          have h1 := step_total st
          have h2 := total_le (winv_reach (h.step (weaken st)))
          omega
      | succ m ih =>
        intro w h hm
        by_cases hf : Final P tags w
        · exact ⟨w, .refl, hf⟩
        · obtain ⟨w', st⟩ := C29_progress h hf
          have h1 := step_total st
          obtain ⟨w'', s1, s2⟩ := ih w' (h.step (weaken st)) (by omega)
          exact ⟨w'', .head (weaken st) s1, s2⟩
    exact this _ w h le_rfl
  · intro n path h0 hs
    have : ∀ j ≤ n, Reach P tags sync (path j) ∧ j ≤ total P (path j) := by
      intro j
      induction j with
      | zero => intro _; exact ⟨h0 ▸ h, Nat.zero_le _⟩
      | succ j ih =>
        intro hj
        obtain ⟨a, b⟩ := ih (by omega)
        have := step_total (hs j (by omega))
        exact ⟨a.step (hs j (by omega)), by omega⟩
    obtain ⟨a, b⟩ := this n le_rfl
    exact b.trans (total_le (winv_reach a))

/-- C29 holds of each section separately but fails for two sections in a row, even with different tags and synchronous sends: rank 0 does not wait at the start of the second section
for the others to leave the first one, so two processes are in critical sections at once. -/
theorem C29_two_sections_refuted : ∃ w, Reach 2 [0, 1] true w ∧ (w.proc 0).ph = .inside ∧ (w.proc 1).ph = .inside := by
  have s1 := Reach.init.step (Step.enter0 (P := 2) (tags := [0, 1]) (sync := true) worldInit (by omega) rfl (by simp [worldInit]))
  have s2 := s1.step (Step.post _ 0 (by omega) rfl (by omega) (by simp [worldInit]))
  have s3 := s2.step (Step.enter _ 0 (by omega) rfl (by simp [worldInit]) (by simp [worldInit]))
  have s4 := s3.step (Step.finish _ 0 (by omega) (by simp [worldInit]) (by simp [worldInit]))
  have s5 := s4.step (Step.enter0 _ (by omega) (by simp) (by simp [worldInit]))
  exact ⟨_, s5, by simp, by simp⟩

end Mpb.Util

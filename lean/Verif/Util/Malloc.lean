import Mathlib.Algebra.BigOperators.Group.List.Basic
import Mathlib.Data.List.Basic
import Mathlib.Data.List.Nodup
import Mathlib.Tactic.Linarith

/-!
# C30: the debugging allocator, src/util/debug_malloc.c

Model: memory blocks handed out by the system allocator, each with its two header words and its bytes.  Simplification: the counters are exact integers (C `int`), sizes are small
enough for `PAD_FACTOR * n` to fit.  The system allocator is the environment: it may reuse the address of a freed block, and after a free it may change the block's header in any
way that does not leave the magic number in the second word.
-/

namespace Mpb.Util

/-- `MAGIC`, debug_malloc.c:67, and `MMAGIC`, line 68, as an `int`. -/
def magic : ℤ := 0xABadCafe
def mmagic : ℤ := 0xABadCafe - 4294967296

/-- `(char) (i ^ 0xDEADBEEF)`, debug_malloc.c:101, as a byte. -/
def padByte (i : ℕ) : ℕ := (i ^^^ 0xDEADBEEF) % 256

/-- A block of `PAD_FACTOR * n + TWOINTS` bytes: whether the system allocator considers it allocated, the two header words and the bytes after them. -/
structure Blk where
  live : Bool
  h0 : ℤ
  h1 : ℤ
  bytes : ℕ → ℕ

/-- `debug_malloc_cnt`, `debug_malloc_total`, and the memory (by the address returned to the user). -/
structure DM where
  cnt : ℤ
  total : ℤ
  mem : ℕ → Option Blk

/-- The start. -/
def dmInit : DM := ⟨0, 0, fun _ => none⟩

/-- What a program does: allocate `n` bytes (the system allocator choosing address `a`), free an address (`s0`, `s1`: the header words after the system's free), write byte `v` at offset
`off` of a block. -/
inductive MOp where
  | malloc (a n : ℕ)
  | free (a : ℕ) (s0 s1 : ℤ)
  | write (a off v : ℕ)

/-- The outcome: normal, the program is stopped with an error message, or undefined behaviour. -/
inductive MRes where
  | ok (s : DM)
  | die
  | ub

/-- `debug_malloc`, debug_malloc.c:80-108. -/
def debugMalloc (s : DM) (a n : ℕ) : DM :=
  { cnt := s.cnt + 1, total := s.total + n, mem := fun x => if x = a then some ⟨true, n, magic, padByte⟩ else s.mem x }

/-- `debug_free`, debug_malloc.c:110-147, the checks in the order of the code; `b` is the memory at the address. -/
def debugFree (s : DM) (a : ℕ) (b : Blk) (s0 s1 : ℤ) : MRes :=
  let n := b.h0
  if n = mmagic then .die
  else if b.h1 ≠ magic then .die
  else if ¬ n ≥ 0 then .die
  else if ¬ s.total - n ≥ 0 then .die
  else if (List.range n.toNat).all (fun i => b.bytes (n.toNat + i) == padByte (n.toNat + i)) then
    .ok { cnt := s.cnt - 1, total := s.total - n, mem := fun x => if x = a then some { b with live := false, h0 := s0, h1 := s1 } else s.mem x }
  else .die

/-- One action.  The system allocator never returns address 0 nor an address in use; writes outside the `2 n` bytes of a block, writes to freed blocks and frees of addresses never handed out are
undefined behaviour. -/
def mstep (s : DM) : MOp → MRes
  | .malloc a n => if a = 0 ∨ (s.mem a).any (·.live) then .ub else .ok (debugMalloc s a n)
  | .free a s0 s1 =>
    if a = 0 then .die
    else match s.mem a with
      | none => .ub
      | some b => if s1 = magic then .ub else debugFree s a b s0 s1
  | .write a off v =>
    match s.mem a with
    | none => .ub
    | some b => if b.live ∧ (off : ℤ) < 2 * b.h0 then .ok { s with mem := fun x => if x = a then some { b with bytes := fun i => if i = off then v else b.bytes i } else s.mem x } else .ub

/-- A history. -/
def mrun (s : DM) : List MOp → MRes
  | [] => .ok s
  | o :: os => match mstep s o with
    | .ok s => mrun s os
    | .die => .die
    | .ub => .ub

/-- `debug_check_memory_leaks`, debug_malloc.c:161-171: true when the program is stopped with "MEMORY LEAK". -/
def leakCheck (s : DM) : Bool := s.cnt ≠ 0 ∨ s.total ≠ 0

/-! ## Specification: the list of live blocks, from the history alone -/

namespace Spec

/-- A live block: address, requested size, and the writes made to it. -/
structure Live where
  addr : ℕ
  size : ℕ
  writes : List (ℕ × ℕ)

def liveStep (l : List Live) : MOp → List Live
  | .malloc a n => ⟨a, n, []⟩ :: l
  | .free a _ _ => l.filter (fun b => b.addr ≠ a)
  | .write a off v => l.map fun b => if b.addr = a then { b with writes := (off, v) :: b.writes } else b

/-- The live blocks after a history. -/
def liveAfter (os : List MOp) : List Live := os.foldl liveStep []

/-- Some byte beyond the requested size was changed: the last value written to it is not what the allocator had put there. -/
def Overrun (b : Live) : Prop := ∃ i, b.size ≤ i ∧ i < 2 * b.size ∧ ∃ v, b.writes.lookup i = some v ∧ v ≠ padByte i

end Spec

open Spec

structure MInv (s : DM) (l : List Live) : Prop where
  nodup : (l.map (·.addr)).Nodup
  cnt : s.cnt = l.length
  total : s.total = (l.map fun b => (b.size : ℤ)).sum
  live : ∀ b ∈ l, b.addr ≠ 0 ∧ s.mem b.addr = some ⟨true, b.size, magic, fun i => (b.writes.lookup i).getD (padByte i)⟩
  dead : ∀ a blk, s.mem a = some blk → (∀ b ∈ l, b.addr ≠ a) → blk.live = false ∧ blk.h1 ≠ magic

theorem live_mem {s : DM} {l : List Live} (i : MInv s l) {a : ℕ} {blk : Blk} (hm : s.mem a = some blk) (hl : blk.live = true) : ∃ b ∈ l, b.addr = a := by
  by_contra hc
  push Not at hc
  have := (i.dead a blk hm hc).1
  rw [hl] at this
  cases this

theorem mstep_inv {s s' : DM} {l : List Live} (i : MInv s l) {o : MOp} (h : mstep s o = .ok s') : MInv s' (liveStep l o) := by
  cases o with
  | malloc a n =>
    simp only [mstep] at h
    split_ifs at h with hc
    injection h with h
    subst h
    push Not at hc
    have hfresh : ∀ b ∈ l, b.addr ≠ a := by
      intro b hb e
      have := (i.live b hb).2
      rw [e] at this
      exact hc.2 (by rw [this]; rfl)
    refine ⟨?_, ?_, ?_, ?_, ?_⟩
    · simp only [liveStep, List.map_cons, List.nodup_cons]
      exact ⟨fun hm => by obtain ⟨b, hb, e⟩ := List.mem_map.1 hm; exact hfresh b hb e, i.nodup⟩
    · simp [liveStep, debugMalloc, i.cnt]
    · simp [liveStep, debugMalloc, i.total, add_comm]
    · intro b hb
      rcases List.mem_cons.1 hb with rfl | hb
      · exact ⟨hc.1, by simp [debugMalloc]⟩
      · refine ⟨(i.live b hb).1, ?_⟩
        simp only [debugMalloc, if_neg (hfresh b hb)]
        exact (i.live b hb).2
    · intro x blk hx hn
      have hxa : x ≠ a := fun e => hn ⟨a, n, []⟩ List.mem_cons_self e.symm
      simp only [debugMalloc, if_neg hxa] at hx
      exact i.dead x blk hx fun b hb => hn b (List.mem_cons_of_mem _ hb)
  | free a s0 s1 =>
    simp only [mstep] at h
    by_cases ha : a = 0
    · rw [if_pos ha] at h; simp at h
    rw [if_neg ha] at h
    cases hm : s.mem a with
    | none => rw [hm] at h; simp at h
    | some blk =>
      rw [hm] at h
      simp only at h
      by_cases hs1 : s1 = magic
      · rw [if_pos hs1] at h; simp at h
      rw [if_neg hs1] at h
      unfold debugFree at h
      simp only at h
      split_ifs at h with h1 h2 h3 h4 h5
      injection h with h
      subst h
      push Not at h2
      obtain ⟨b, hb, rfl⟩ : ∃ b ∈ l, b.addr = a := by
        by_contra hc
        push Not at hc
        exact (i.dead a blk hm hc).2 h2
      have hblk := (i.live b hb).2
      rw [hm] at hblk
      injection hblk with hblk
      have hsz : blk.h0 = b.size := by rw [hblk]
      obtain ⟨l1, l2, rfl⟩ := List.append_of_mem hb
      have nd := i.nodup
      simp only [List.map_append, List.map_cons] at nd
      have hnm := (List.nodup_middle.1 nd)
      rw [List.nodup_cons] at hnm
      have hf : (l1 ++ b :: l2).filter (fun c => c.addr ≠ b.addr) = l1 ++ l2 := by
        rw [List.filter_append, List.filter_cons_of_neg (by simp)]
        rw [List.filter_eq_self.2, List.filter_eq_self.2]
        · intro c hc
          simp only [ne_eq, decide_not, Bool.not_eq_eq_eq_not, Bool.not_true, decide_eq_false_iff_not]
          intro e
          exact hnm.1 (List.mem_append.2 (Or.inr (List.mem_map.2 ⟨c, hc, e⟩)))
        · intro c hc
          simp only [ne_eq, decide_not, Bool.not_eq_eq_eq_not, Bool.not_true, decide_eq_false_iff_not]
          intro e
          exact hnm.1 (List.mem_append.2 (Or.inl (List.mem_map.2 ⟨c, hc, e⟩)))
      have hstep : liveStep (l1 ++ b :: l2) (.free b.addr s0 s1) = l1 ++ l2 := by
        unfold liveStep
        exact hf
      rw [hstep]
      refine ⟨?_, ?_, ?_, ?_, ?_⟩
      · rw [List.map_append]; exact hnm.2
      · have := i.cnt
        simp only [List.length_append, List.length_cons] at this ⊢
        push_cast at this ⊢
        omega
      · have := i.total
        simp only [List.map_append, List.map_cons, List.sum_append, List.sum_cons] at this ⊢
        rw [hsz]
        omega
      · intro c hc
        have hcb : c.addr ≠ b.addr := fun e => hnm.1 (by
          rw [← List.map_append]; exact List.mem_map.2 ⟨c, hc, e⟩)
        have hc' : c ∈ l1 ++ b :: l2 := by
          rcases List.mem_append.1 hc with h | h
          · exact List.mem_append.2 (Or.inl h)
          · exact List.mem_append.2 (Or.inr (List.mem_cons_of_mem _ h))
        refine ⟨(i.live c hc').1, ?_⟩
        simp only [if_neg hcb]
        exact (i.live c hc').2
      · intro x blk' hx hn
        by_cases hxa : x = b.addr
        · simp only [hxa, if_true, Option.some.injEq] at hx
          subst hx
          exact ⟨rfl, hs1⟩
        · simp only [if_neg hxa] at hx
          refine i.dead x blk' hx fun c hc => ?_
          rcases List.mem_append.1 hc with h | h
          · exact hn c (List.mem_append.2 (Or.inl h))
          · rcases List.mem_cons.1 h with rfl | h
            · exact fun e => hxa e.symm
            · exact hn c (List.mem_append.2 (Or.inr h))
  | write a off v =>
    simp only [mstep] at h
    cases hm : s.mem a with
    | none => rw [hm] at h; simp at h
    | some blk =>
      rw [hm] at h
      simp only at h
      split_ifs at h with hc
      injection h with h
      subst h
      have hmap : ∀ {β : Type} (f : Live → β), (∀ b w, f { b with writes := w } = f b) → (liveStep l (.write a off v)).map f = l.map f := by
        intro β f hf
        simp only [liveStep, List.map_map]
        refine List.map_congr_left fun b _ => ?_
        simp only [Function.comp]
        split_ifs
        · exact hf _ _
        · rfl
      refine ⟨?_, ?_, ?_, ?_, ?_⟩
      · rw [hmap (·.addr) (fun _ _ => rfl)]; exact i.nodup
      · simp [liveStep, i.cnt]
      · rw [hmap (fun b => (b.size : ℤ)) (fun _ _ => rfl)]; exact i.total
      · intro b' hb'
        obtain ⟨b, hb, rfl⟩ := List.mem_map.1 hb'
        by_cases e : b.addr = a
        · simp only [e, if_true]
          refine ⟨e ▸ (i.live b hb).1, ?_⟩
          have := (i.live b hb).2
          rw [e, hm] at this
          injection this with this
          rw [this]
          simp only [Option.some.injEq, Blk.mk.injEq, true_and]
          funext j
          by_cases hj : j = off
          · subst hj; simp
          · rw [if_neg hj, List.lookup_cons]
            have : (j == off) = false := by simpa using hj
            rw [this]
        · simp only [if_neg e]
          exact i.live b hb
      · intro x blk' hx hn
        by_cases hxa : x = a
        · obtain ⟨b, hb, e⟩ := live_mem i hm hc.1
          exfalso
          refine hn (if b.addr = a then { b with writes := (off, v) :: b.writes } else b) (List.mem_map.2 ⟨b, hb, rfl⟩) ?_
          rw [if_pos e, hxa]; exact e
        · simp only [if_neg hxa] at hx
          refine i.dead x blk' hx fun b hb => ?_
          have := hn (if b.addr = a then { b with writes := (off, v) :: b.writes } else b) (List.mem_map.2 ⟨b, hb, rfl⟩)
          split_ifs at this with e
          · exact this
          · exact this

theorem mrun_inv : ∀ (os : List MOp) (s : DM) (l : List Live), MInv s l → ∀ s', mrun s os = .ok s' → MInv s' (os.foldl liveStep l) := by
  intro os
  induction os with
  | nil => intro s l i s' h; simp only [mrun] at h; injection h with h; subst h; exact i
  | cons o os ih =>
    intro s l i s' h
    simp only [mrun] at h
    cases hs : mstep s o with
    | ok s1 => rw [hs] at h; exact ih s1 _ (mstep_inv i hs) s' h
    | die => rw [hs] at h; simp at h
    | ub => rw [hs] at h; simp at h

theorem minit : MInv dmInit [] := ⟨List.nodup_nil, rfl, rfl, fun b hb => by simp at hb, fun a blk h => by simp [dmInit] at h⟩

/-- C30, accounting: after every history of allocations, frees and writes that ran without error, the counters are the number of live blocks and the sum of their sizes; so the leak check stops
the program exactly when some block is live. -/
theorem C30_accounting (os : List MOp) (s : DM) (h : mrun dmInit os = .ok s) :
    s.cnt = (liveAfter os).length ∧ s.total = ((liveAfter os).map fun b => (b.size : ℤ)).sum ∧ (leakCheck s = true ↔ liveAfter os ≠ []) := by
  have i := mrun_inv os dmInit [] minit s h
  refine ⟨i.cnt, i.total, ?_⟩
  have h1 : s.cnt = (liveAfter os).length := i.cnt
  have h2 : s.total = ((liveAfter os).map fun b => (b.size : ℤ)).sum := i.total
  unfold leakCheck
  simp only [decide_eq_true_eq]
  constructor
  · rintro h e
    rw [e] at h1 h2
    simp at h1 h2
    omega
  · intro h
    left
    rw [h1]
    have := List.length_pos_iff.2 h
    omega

theorem sum_ge {l : List Live} {b : Live} (hb : b ∈ l) : (b.size : ℤ) ≤ (l.map fun b => (b.size : ℤ)).sum := by
  induction l with
  | nil => simp at hb
  | cons c l ih =>
    have hnn : 0 ≤ (l.map fun b => (b.size : ℤ)).sum := by
      clear ih hb
      induction l with
      | nil => simp
      | cons d l ih => simp only [List.map_cons, List.sum_cons]; omega
    simp only [List.map_cons, List.sum_cons]
    rcases List.mem_cons.1 hb with rfl | hb
    · omega
    · have := ih hb; omega

/-- C30, errors: after every history that ran without error, freeing an address that was handed out at some time stops the program exactly when the block there is not live (it was freed already) or a
byte past its end has been changed; freeing NULL always does. -/
theorem C30_errors (os : List MOp) (s : DM) (h : mrun dmInit os = .ok s) (a : ℕ) (s0 s1 : ℤ) (hs1 : s1 ≠ magic) :
    (a = 0 → mstep s (.free a s0 s1) = .die) ∧
    (a ≠ 0 → s.mem a ≠ none → (mstep s (.free a s0 s1) = .die ↔ ∀ b ∈ liveAfter os, b.addr = a → Overrun b)) := by
  have i := mrun_inv os dmInit [] minit s h
  refine ⟨fun e => by simp [mstep, e], fun ha hm => ?_⟩
  cases hmem : s.mem a with
  | none => exact absurd hmem hm
  | some blk =>
    simp only [mstep, if_neg ha, hmem, if_neg hs1]
    by_cases hl : ∃ b ∈ liveAfter os, b.addr = a
    · obtain ⟨b, hb, rfl⟩ := hl
      have hblk := (i.live b hb).2
      rw [hmem] at hblk
      injection hblk with hblk
      subst hblk
      have huniq : ∀ c ∈ liveAfter os, c.addr = b.addr → c = b := fun c hc e => List.inj_on_of_nodup_map i.nodup hc hb e
      have hrhs : (∀ c ∈ liveAfter os, c.addr = b.addr → Overrun c) ↔ Overrun b :=
        ⟨fun h => h b hb rfl, fun h c hc e => by rw [huniq c hc e]; exact h⟩
      rw [hrhs]
      have c1 : ¬ ((b.size : ℤ) = mmagic) := by unfold mmagic; omega
      have c4 : ¬ ¬ (s.total - (b.size : ℤ) ≥ 0) := by
        have h1 := sum_ge hb
        have h2 : s.total = ((liveAfter os).map fun b => (b.size : ℤ)).sum := i.total
        omega
      have c3 : ¬ ¬ ((b.size : ℤ) ≥ 0) := by omega
      unfold debugFree
      simp only [if_neg c1, ne_eq, not_true_eq_false, if_false, if_neg c3, if_neg c4, Int.toNat_natCast]
      split
      · next hall =>
        simp only [reduceCtorEq, false_iff]
        rintro ⟨j, hj1, hj2, v, hv, hne⟩
        rw [List.all_eq_true] at hall
        have := hall (j - b.size) (List.mem_range.2 (by omega))
        rw [Nat.add_sub_cancel' hj1, hv] at this
        simp at this
        exact hne this
      · next hall =>
        simp only [true_iff]
        have : ¬ ∀ x ∈ List.range b.size, ((b.writes.lookup (b.size + x)).getD (padByte (b.size + x)) == padByte (b.size + x)) = true := fun hh => hall (List.all_eq_true.2 hh)
        push Not at this
        obtain ⟨x, hx, hne⟩ := this
        have hx := List.mem_range.1 hx
        refine ⟨b.size + x, by omega, by omega, ?_⟩
        cases hlk : b.writes.lookup (b.size + x) with
        | none => rw [hlk] at hne; simp at hne
        | some v => rw [hlk] at hne; exact ⟨v, rfl, by simpa using hne⟩
    · push Not at hl
      have hd := i.dead a blk hmem hl
      have : debugFree s a blk s0 s1 = .die := by
        unfold debugFree
        simp only
        rw [if_pos hd.2]
        split_ifs <;> rfl
      rw [this]
      exact ⟨fun _ b hb e => absurd e (hl b hb), fun _ => rfl⟩

/-- A concrete history: two blocks, one overrun by a byte and one reused address; freeing the overrun block is an error, the other one is not. -/
example : ∃ s, mrun dmInit [.malloc 100 4, .malloc 200 8, .free 100 0 0, .malloc 100 2, .write 200 8 0, .write 100 1 7] = .ok s ∧ s.cnt = 2 ∧ s.total = 10 ∧
    mstep s (.free 200 0 0) = .die ∧ ∃ s', mstep s (.free 100 0 0) = .ok s' := by
  exact ⟨_, rfl, rfl, rfl, rfl, ⟨_, rfl⟩⟩

/-- C30 is not exact beyond that: an overrun that happens to write the byte already there goes unnoticed, and so does freeing twice a block whose address has been handed out again in between. -/
theorem C30_unnoticed_refuted :
    (∃ s s', mrun dmInit [.malloc 100 1, .write 100 1 (padByte 1)] = .ok s ∧ mstep s (.free 100 0 0) = .ok s') ∧
    (∃ s s', mrun dmInit [.malloc 100 1, .free 100 0 0, .malloc 100 1] = .ok s ∧ mstep s (.free 100 0 0) = .ok s') :=
  ⟨⟨_, _, rfl, rfl⟩, ⟨_, _, rfl, rfl⟩⟩

end Mpb.Util

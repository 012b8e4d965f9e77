import Verif.Common
import Verif.FindK.Spec

namespace Mpb.FindK
open Spec
variable {κ F : Type*} [DecidableEq κ] [Field F] [LinearOrder F]

theorem ncdr_eq {α : Type*} : ∀ (n : ℕ) (l : List α), ncdr n l = l.drop n
  | 0, l => by simp [ncdr]
  | n + 1, l => by rw [ncdr, ncdr_eq n]; cases l <;> simp

theorem mem_arithSeq : ∀ {n s b : ℕ}, b ∈ arithSeq s n ↔ s ≤ b ∧ b < s + n
  | 0, s, b => by simp [arithSeq]
  | n + 1, s, b => by rw [arithSeq, List.mem_cons, mem_arithSeq]; omega

/-- The list that the caching `map` ranges over. -/
def entries (f v : ℕ → κ → F) (k : κ) (s : ℕ) : ℕ → List (ℕ × F × F)
  | 0 => []
  | n + 1 => (s, f s k, v s k) :: entries f v k (s + 1) n

theorem zip3_eq (f v : ℕ → κ → F) (k : κ) : ∀ (n s : ℕ), 1 ≤ s →
    zip3 (arithSeq s n) (((List.range n).map (fun i => f (s + i) k))) ((List.range n).map (fun i => v (s + i) k)) =
      entries f v k s n
  | 0, s, _ => by simp [arithSeq, zip3, entries]
  | n + 1, s, h => by
    have := zip3_eq f v k n (s + 1) (by omega)
    rw [List.range_succ_eq_map]
    simp only [arithSeq, List.map_cons, List.map_map, zip3, entries, Nat.add_zero]
    rw [← this]
    simp only [Function.comp_def, Nat.succ_eq_add_one]
    congr 3 <;> · funext i; congr 1; omega

theorem drop_range_map {α : Type*} (g : ℕ → α) (n s : ℕ) (h : 1 ≤ s) :
    ((List.range n).map (fun i => g (i + 1))).drop (s - 1) = (List.range (n + 1 - s)).map (fun i => g (s + i)) := by
  apply List.ext_getElem
  · simp; omega
  · intro i h1 h2
    simp only [List.getElem_drop, List.getElem_map, List.getElem_range]
    congr 1; omega

/-- Effect of the caching fold. -/
theorem fold_spec (f v : ℕ → κ → F) (omega : F) (bmin : ℕ) (k : κ) : ∀ (n s : ℕ) (st : St κ F), bmin ≤ s →
    let st' := (entries f v k s n).foldl (cacheOne omega bmin k) st
    (∀ b, b < s ∨ s + n ≤ b → bmin ≤ b →
      st'.k0s (b - bmin) = st.k0s (b - bmin) ∧ ∀ k', st'.bktab.lookup (b, k') = st.bktab.lookup (b, k')) ∧
    (∀ b, s ≤ b → b < s + n →
      (st'.k0s (b - bmin) = match st.bktab.lookup (b, st.k0s (b - bmin)) with
        | none => k
        | some tv => if |f b k - omega| < |tv.1| then k else st.k0s (b - bmin)) ∧
      ∀ k', st'.bktab.lookup (b, k') = if k' = k then some (f b k - omega, v b k) else st.bktab.lookup (b, k'))
  | 0, s, st, h => by
    simp only [entries, List.foldl_nil]
    exact ⟨fun b _ _ => ⟨trivial, fun _ => trivial⟩, fun b h1 h2 => by omega⟩
  | n + 1, s, st, h => by
    have ih := fold_spec f v omega bmin k n (s + 1) (cacheOne omega bmin k st (s, f s k, v s k)) (by omega)
    simp only [entries, List.foldl_cons]
    obtain ⟨ih1, ih2⟩ := ih
    have hlook : ∀ b k', (cacheOne omega bmin k st (s, f s k, v s k)).bktab.lookup (b, k') =
        if b = s ∧ k' = k then some (f s k - omega, v s k) else st.bktab.lookup (b, k') := by
      intro b k'
      simp only [cacheOne, List.lookup_cons]
      by_cases hb : b = s ∧ k' = k
      · obtain ⟨rfl, rfl⟩ := hb; simp
      · have : ((b, k') == (s, k)) = false := by
          rw [beq_eq_false_iff_ne]; intro e; apply hb; simpa using e
        rw [this]; simp [hb]
    have hk : ∀ b, bmin ≤ b → b ≠ s → (cacheOne omega bmin k st (s, f s k, v s k)).k0s (b - bmin) = st.k0s (b - bmin) := by
      intro b hb hne
      simp only [cacheOne]
      split_ifs
      · rw [Function.update_of_ne]; omega
      · rfl
    refine ⟨fun b hb hbm => ?_, fun b hb1 hb2 => ?_⟩
    · obtain ⟨e1, e2⟩ := ih1 b (by omega) hbm
      have hne : b ≠ s := by omega
      refine ⟨e1.trans (hk b hbm hne), fun k' => ?_⟩
      rw [e2, hlook]; simp [hne]
    · rcases Nat.eq_or_lt_of_le hb1 with rfl | hlt
      · obtain ⟨e1, e2⟩ := ih1 s (by omega) h
        refine ⟨e1.trans ?_, fun k' => ?_⟩
        · simp only [cacheOne]
          rcases st.bktab.lookup (s, st.k0s (s - bmin)) with _ | tv
          · simp
          · by_cases hc : |f s k - omega| < |tv.1| <;> simp [hc]
        · rw [e2, hlook]; simp
      · obtain ⟨e1, e2⟩ := ih2 b (by omega) (by omega)
        have hne : b ≠ s := by omega
        refine ⟨?_, fun k' => ?_⟩
        · rw [e1, hk b (by omega) hne, hlook]; simp [hne]
        · rw [e2, hlook]; simp [hne]

/-- The cache invariant for the bands `bmin..c`, when exactly the points `pts` have been evaluated. -/
def Inv (f v : ℕ → κ → F) (omega : F) (bmin c : ℕ) (guess : ℕ → κ) (pts : List κ) (st : St κ F) : Prop :=
  ∀ b, bmin ≤ b → b ≤ c →
    (∀ k, st.bktab.lookup (b, k) = if k ∈ pts then some (f b k - omega, v b k) else none) ∧
    GuessOK f omega (guess (b - bmin)) b pts (st.k0s (b - bmin))

theorem Inv.mono {f v : ℕ → κ → F} {omega : F} {bmin c c' : ℕ} {guess : ℕ → κ} {pts : List κ} {st : St κ F}
    (h : Inv f v omega bmin c guess pts st) (hc : c' ≤ c) : Inv f v omega bmin c' guess pts st :=
  fun b h1 h2 => h b h1 (h2.trans hc)

theorem Inv.dup {f v : ℕ → κ → F} {omega : F} {bmin c : ℕ} {guess : ℕ → κ} {pts : List κ} {st : St κ F} {k : κ}
    (h : Inv f v omega bmin c guess pts st) (hk : k ∈ pts) : Inv f v omega bmin c guess (k :: pts) st := by
  intro b h1 h2
  obtain ⟨a1, a2⟩ := h b h1 h2
  refine ⟨fun k' => ?_, ?_⟩
  · rw [a1]
    have : k' ∈ k :: pts ↔ k' ∈ pts := by
      constructor
      · intro h; rcases List.mem_cons.1 h with rfl | h
        · exact hk
        · exact h
      · exact List.mem_cons_of_mem _
    simp only [this]
  · rcases a2 with ⟨e, -⟩ | ⟨m, hm⟩
    · subst e; simp at hk
    · exact Or.inr ⟨List.mem_cons_of_mem _ m, fun k' hk' => by
        rcases List.mem_cons.1 hk' with rfl | h
        · exact hm _ hk
        · exact hm _ h⟩

theorem inv_congr {f v : ℕ → κ → F} {omega : F} {bmin c : ℕ} {guess : ℕ → κ} {pts pts' : List κ} {st : St κ F}
    (h : Inv f v omega bmin c guess pts st) (hm : ∀ k, k ∈ pts ↔ k ∈ pts') : Inv f v omega bmin c guess pts' st := by
  intro b h1 h2
  obtain ⟨a1, a2⟩ := h b h1 h2
  refine ⟨fun k => by rw [a1]; simp only [hm], ?_⟩
  rcases a2 with ⟨e, g⟩ | ⟨m, hb⟩
  · left; refine ⟨?_, g⟩
    subst e
    apply List.eq_nil_iff_forall_not_mem.2
    intro k hk; have := (hm k).2 hk; simp at this
  · right; exact ⟨(hm _).1 m, fun k' hk' => hb k' ((hm _).2 hk')⟩

variable {f v : ℕ → κ → F} {fs vs : ℕ → κ → List F}

theorem rootfun_spec (hO : Oracle f v fs vs) {omega : F} {bmin b : ℕ} (hb1 : 1 ≤ bmin) (hb : bmin ≤ b) {guess : ℕ → κ}
    {pts : List κ} {st : St κ F} (hI : Inv f v omega bmin b guess pts st) (k : κ) :
    ∃ st', rootfun fs vs omega bmin b k st = some ((f b k - omega, v b k), st') ∧
      Inv f v omega bmin b guess (k :: pts) st' := by
  have hl := (hI b hb le_rfl).1 k
  unfold rootfun
  by_cases hk : k ∈ pts
  · rw [if_pos hk] at hl
    rw [hl]
    exact ⟨st, rfl, hI.dup hk⟩
  · rw [if_neg hk] at hl
    rw [hl]
    have e1 : zip3 (arithSeq bmin (b + 1 - bmin)) (ncdr (bmin - 1) (fs b k)) (ncdr (bmin - 1) (vs b k)) =
        entries f v k bmin (b + 1 - bmin) := by
      rw [ncdr_eq, ncdr_eq, hO.freqs, hO.vels, drop_range_map (fun i => f i k) b bmin hb1,
        drop_range_map (fun i => v i k) b bmin hb1, zip3_eq f v k _ _ hb1]
    have e2 : (fs b k).reverse.head? = some (f b k) := by
      rw [hO.freqs, List.head?_reverse]
      obtain ⟨c, rfl⟩ : ∃ c, b = c + 1 := ⟨b - 1, by omega⟩
      simp [List.range_succ]
    have e3 : (vs b k).reverse.head? = some (v b k) := by
      rw [hO.vels, List.head?_reverse]
      obtain ⟨c, rfl⟩ : ∃ c, b = c + 1 := ⟨b - 1, by omega⟩
      simp [List.range_succ]
    dsimp only
    rw [e1, e2, e3]
    refine ⟨_, rfl, ?_⟩
    have hfold := fold_spec f v omega bmin k (b + 1 - bmin) bmin { st with numBands := b, kPoints := [k] } le_rfl
    obtain ⟨-, hfold⟩ := hfold
    intro b' h1 h2
    obtain ⟨q1, q2⟩ := hfold b' h1 (by omega)
    obtain ⟨a1, a2⟩ := hI b' h1 h2
    refine ⟨fun k' => ?_, ?_⟩
    · rw [q2]
      by_cases hkk : k' = k
      · subst hkk; simp
      · simp only [hkk, if_false, List.mem_cons, false_or]
        exact a1 k'
    · right
      rw [q1]
      dsimp only
      rw [a1]
      rcases a2 with ⟨e, g⟩ | ⟨m, hbest⟩
      · subst e
        simp only [List.not_mem_nil, if_false]
        refine ⟨by simp, fun k' hk' => ?_⟩
        simp only [List.mem_cons, List.not_mem_nil, or_false] at hk'
        rw [hk']
      · rw [if_pos m]
        dsimp only
        split_ifs with hlt
        · refine ⟨by simp, fun k' hk' => ?_⟩
          rcases List.mem_cons.1 hk' with rfl | h
          · exact le_rfl
          · exact hlt.le.trans (hbest _ h)
        · refine ⟨List.mem_cons_of_mem _ m, fun k' hk' => ?_⟩
          rcases List.mem_cons.1 hk' with rfl | h
          · exact not_lt.1 hlt
          · exact hbest _ h

theorem runStrat_spec (hO : Oracle f v fs vs) {omega : F} {bmin b : ℕ} (hb1 : 1 ≤ bmin) (hb : bmin ≤ b) {guess : ℕ → κ} :
    ∀ (s : Strat κ F) {pts : List κ} {st : St κ F}, Inv f v omega bmin b guess pts st →
    ∃ st', runStrat fs vs omega bmin b s st = some (runFresh f v omega b s, st') ∧
      Inv f v omega bmin b guess (asked f v omega b s ++ pts) st'
  | .ret k, pts, st, h => ⟨st, rfl, h⟩
  | .ask k next, pts, st, h => by
    obtain ⟨st', h1, h2⟩ := rootfun_spec hO hb1 hb h k
    obtain ⟨st'', h3, h4⟩ := runStrat_spec hO hb1 hb (next (f b k - omega, v b k)) h2
    refine ⟨st'', by simp only [runStrat, h1, runFresh]; exact h3, inv_congr h4 (fun k' => ?_)⟩
    simp only [asked, List.mem_append, List.mem_cons]
    tauto

theorem bandLoop_spec (hO : Oracle f v fs vs) {omega : F} {bmin : ℕ} (hb1 : 1 ≤ bmin) {guess : ℕ → κ}
    (strat : ℕ → κ → Strat κ F) : ∀ (n : ℕ) {pts : List κ} {st : St κ F}, Inv f v omega bmin (bmin + n - 1) guess pts st →
    ∃ ks st', bandLoop fs vs omega bmin strat (arithSeq bmin n).reverse st = some (ks, st') ∧
      Results f v omega (fun b => guess (b - bmin)) strat (arithSeq bmin n).reverse pts ks := by
  intro n
  have hsucc : ∀ n s, (arithSeq s (n + 1)).reverse = (s + n) :: (arithSeq s n).reverse := by
    intro n
    induction n with
    | zero => intro s; simp [arithSeq]
    | succ n ih =>
      intro s
      rw [arithSeq, List.reverse_cons, ih (s + 1), arithSeq, List.reverse_cons]
      have : s + 1 + n = s + (n + 1) := by omega
      simp [this]
  induction n with
  | zero => intro pts st _; exact ⟨[], st, rfl, .nil _⟩
  | succ n ih =>
    intro pts st hI
    have hb : bmin ≤ bmin + n := by omega
    have hI' : Inv f v omega bmin (bmin + n) guess pts st := by
      have e : bmin + (n + 1) - 1 = bmin + n := by omega
      rwa [e] at hI
    obtain ⟨st', h1, h2⟩ := runStrat_spec hO hb1 hb (strat (bmin + n) (st.k0s (bmin + n - bmin))) hI'
    obtain ⟨ks, st'', h3, h4⟩ := ih (h2.mono (by omega))
    refine ⟨runFresh f v omega (bmin + n) (strat (bmin + n) (st.k0s (bmin + n - bmin))) :: ks, st'', ?_, ?_⟩
    · rw [hsucc]
      simp only [bandLoop, h1, h3]
    · rw [hsucc]
      exact .cons _ _ _ _ ks (hI' _ hb le_rfl).2 h4

end Mpb.FindK

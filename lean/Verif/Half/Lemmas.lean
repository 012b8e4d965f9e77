import Verif.Half.Model
import Mathlib.Data.List.Nodup
import Mathlib.Data.List.TakeWhile
import Mathlib.Tactic.Ring
import Mathlib.Tactic.Linarith

/-!
# Lemmas for C35
-/

namespace Mpb.Half

variable {V : Type} {mul : ℂ → V → V} {conj : V → V}

theorem swapAt_spec (p : ℂ) (a b x : ℕ) (f : ℕ → V) :
    swapAt mul p a b f x = if x = a then mul p (f b) else if x = b then mul p (f a) else f x := by
  unfold swapAt
  simp only [Function.update_apply]

/-- The exchanges, one for each pair of an involution, applied one after the other. -/
theorem swap_spec {K : Type} (S : K → Prop) (addr : K → ℕ) (σ : K → K) (q : K → ℂ) (l : List K) (f : ℕ → V)
    (hinj : ∀ s t, S s → S t → addr s = addr t → s = t) (hσ : ∀ s, S s → S (σ s)) (hσσ : ∀ s, S s → σ (σ s) = s) (hq : ∀ s, S s → q (σ s) = q s)
    (hl : ∀ t, t ∈ l ↔ S t ∧ addr t ≤ addr (σ t)) (nd : l.Nodup) :
    (∀ s, S s → l.foldl (fun f t => swapAt mul (q t) (addr t) (addr (σ t)) f) f (addr s) = mul (q s) (f (addr (σ s)))) ∧
    (∀ a, (∀ s, S s → a ≠ addr s) → l.foldl (fun f t => swapAt mul (q t) (addr t) (addr (σ t)) f) f a = f a) := by
  have main := foldl_local_spec (α := V) (fun t a => a = addr t ∨ a = addr (σ t)) (fun f t => swapAt mul (q t) (addr t) (addr (σ t)) f) l f
    (fun t _ m a ha => by
      rw [swapAt_spec, if_neg fun h => ha (Or.inl h), if_neg fun h => ha (Or.inr h)])
    (fun t _ m m' h a ha => by
      rw [swapAt_spec, swapAt_spec, h _ (Or.inl rfl), h _ (Or.inr rfl), h a ha])
    ((List.nodup_iff_pairwise_ne.1 nd).imp_of_mem fun {t t'} ht ht' hne a ha ha' => by
      obtain ⟨s1, l1⟩ := (hl t).1 ht
      obtain ⟨s2, l2⟩ := (hl t').1 ht'
      have cross : t = σ t' → False := by
        intro e
        have e' : σ t = t' := by rw [e, hσσ t' s2]
        rw [e'] at l1
        rw [← e] at l2
        exact hne (hinj _ _ s1 s2 (le_antisymm l1 l2))
      rcases ha with rfl | rfl <;> rcases ha' with h | h
      · exact hne (hinj _ _ s1 s2 h)
      · exact cross (hinj _ _ s1 (hσ _ s2) h)
      · have := hinj _ _ (hσ _ s1) s2 h
        exact cross (by rw [← this, hσσ t s1])
      · have := hinj _ _ (hσ _ s1) (hσ _ s2) h
        have := congrArg σ this
        rw [hσσ t s1, hσσ t' s2] at this
        exact hne this)
  constructor
  · intro s hs
    rcases le_total (addr s) (addr (σ s)) with h | h
    · rw [main.1 s ((hl s).2 ⟨hs, h⟩) _ (Or.inl rfl), swapAt_spec, if_pos rfl]
    · have hm : σ s ∈ l := (hl _).2 ⟨hσ s hs, by rw [hσσ s hs]; exact h⟩
      rw [main.1 (σ s) hm _ (Or.inr (by rw [hσσ s hs])), swapAt_spec, hσσ s hs, hq s hs]
      by_cases e : addr s = addr (σ s)
      · rw [if_pos e, e]
      · rw [if_neg e, if_pos rfl]
  · intro a ha
    exact main.2 a fun t ht h => by
      obtain ⟨s1, -⟩ := (hl t).1 ht
      rcases h with h | h
      · exact ha t s1 h
      · exact ha _ (hσ t s1) h

/-- A sequence of moves, none of which destroys what is still to be moved. -/
theorem move_spec {K : Type} (src dst : K → ℕ) : ∀ (l : List K) (f : ℕ → V), l.Pairwise (fun s t => dst s ≠ src t ∧ dst s ≠ dst t) →
    ∀ t ∈ l, l.foldl (fun f t => Function.update f (dst t) (conj (f (src t)))) f (dst t) = conj (f (src t)) := by
  intro l
  induction l with
  | nil => intro f _ t ht; simp at ht
  | cons s l ih =>
    intro f hp t ht
    rw [List.pairwise_cons] at hp
    rw [List.foldl_cons]
    have keep : ∀ (l : List K) (f : ℕ → V) (a : ℕ), (∀ t ∈ l, a ≠ dst t) → l.foldl (fun f t => Function.update f (dst t) (conj (f (src t)))) f a = f a := by
      intro l
      induction l with
      | nil => intro f a _; rfl
      | cons u l ih =>
        intro f a h
        rw [List.foldl_cons, ih _ a fun t ht => h t (List.mem_cons_of_mem _ ht), Function.update_of_ne (h u List.mem_cons_self)]
    rcases List.mem_cons.1 ht with rfl | ht
    · rw [keep l _ _ fun u hu => (hp.1 u hu).2, Function.update_self]
    · rw [ih _ hp.2 t ht, Function.update_of_ne (Ne.symm (hp.1 t ht).1)]

/-! ## Three dimensions -/

theorem mirror_lt {n i : ℕ} (h : i < n) : (n - i) % n < n := Nat.mod_lt _ (by omega)

theorem mirror_zero (n : ℕ) : (n - 0) % n = 0 := by simp

theorem mirror_pos {n i : ℕ} (h0 : i ≠ 0) (h : i < n) : (n - i) % n = n - i := Nat.mod_eq_of_lt (by omega)

theorem mirror_mirror {n i : ℕ} (h : i < n) : (n - (n - i) % n) % n = i := by
  by_cases h0 : i = 0
  · subst h0; rw [mirror_zero, mirror_zero]
  · rw [mirror_pos h0 h, mirror_pos (by omega) (by omega)]; omega

theorem mirror_eq_zero {n i : ℕ} (h : i < n) : (n - i) % n = 0 ↔ i = 0 := by
  by_cases h0 : i = 0
  · subst h0; simp
  · rw [mirror_pos h0 h]; omega

theorem rowc_lt {zs : Bool} {nx ix : ℕ} (h : ix < nx) : rowc zs nx ix < nx := by
  unfold rowc
  split_ifs
  · exact mirror_lt h
  · omega

theorem rowc_rowc {zs : Bool} {nx ix : ℕ} (h : ix < nx) : rowc zs nx (rowc zs nx ix) = ix := by
  unfold rowc
  split_ifs
  · exact mirror_mirror h
  · omega

/-- The positions to be exchanged. -/
def S3 (nx ny nNew : ℕ) (t : ℕ × ℕ × ℕ) : Prop := t.1 < nx ∧ t.2.1 < ny ∧ 1 ≤ t.2.2 ∧ t.2.2 ≤ nNew

/-- Their addresses. -/
def a3 (ny nStored : ℕ) (t : ℕ × ℕ × ℕ) : ℕ := (t.1 * ny + t.2.1) * nStored + t.2.2

/-- The exchange. -/
def σ3 (zs : Bool) (nx ny nNew : ℕ) (t : ℕ × ℕ × ℕ) : ℕ × ℕ × ℕ := (rowc zs nx t.1, (ny - t.2.1) % ny, nNew + 1 - t.2.2)

theorem a3_inj {nx ny nNew nStored : ℕ} (hn : nNew < nStored) (s t : ℕ × ℕ × ℕ) (hs : S3 nx ny nNew s) (ht : S3 nx ny nNew t)
    (h : a3 ny nStored s = a3 ny nStored t) : s = t := by
  obtain ⟨e1, e2⟩ := rowMajor_inj (n := nStored) (by have := hs.2.2.2; omega) (by have := ht.2.2.2; omega) h
  obtain ⟨e3, e4⟩ := rowMajor_inj hs.2.1 ht.2.1 e1
  exact Prod.ext e3 (Prod.ext e4 e2)

theorem rowMajor_lt_iff {n q r q' r' : ℕ} (hr : r < n) (hr' : r' < n) : q * n + r ≤ q' * n + r' ↔ q < q' ∨ (q = q' ∧ r ≤ r') := by
  constructor
  · intro h
    by_cases h1 : q < q'
    · exact Or.inl h1
    · right
      have h2 : q = q' := by
        by_contra hne
        have : (q' + 1) * n ≤ q * n := Nat.mul_le_mul_right _ (by omega)
        have e : (q' + 1) * n = q' * n + n := by ring
        omega
      subst h2
      exact ⟨rfl, by omega⟩
  · rintro (h | ⟨rfl, h⟩)
    · have : (q + 1) * n ≤ q' * n := Nat.mul_le_mul_right _ h
      have e : (q + 1) * n = q * n + n := by ring
      omega
    · omega

theorem mem_iters3 {zs : Bool} {nx ny nNew nStored : ℕ} (hnx : 0 < nx) (hn : nNew < nStored) (t : ℕ × ℕ × ℕ) :
    t ∈ iters3 zs nx ny nNew ↔ S3 nx ny nNew t ∧ a3 ny nStored t ≤ a3 ny nStored (σ3 zs nx ny nNew t) := by
  obtain ⟨ix, iy, j⟩ := t
  simp only [iters3, List.mem_flatMap, List.mem_filter, List.mem_range, decide_eq_true_eq]
  constructor
  · rintro ⟨ix', ⟨h1, h1'⟩, iy', h2, h3⟩
    by_cases hc : rowc zs nx ix' * ny + (ny - iy') % ny < ix' * ny + iy'
    · rw [if_pos hc] at h3; simp at h3
    · rw [if_neg hc] at h3
      simp only [List.mem_map, List.mem_range'_1, Prod.mk.injEq] at h3
      obtain ⟨j', ⟨h4, h5⟩, rfl, rfl, rfl⟩ := h3
      have hix : ix' < nx := by
        cases zs <;> simp only [if_true, if_false, Bool.false_eq_true] at h1' <;> omega
      have hj : j' ≤ nNew := by split_ifs at h5 <;> omega
      refine ⟨⟨hix, h2, h4, hj⟩, ?_⟩
      unfold a3 σ3
      rw [rowMajor_lt_iff (by simp only; omega) (by simp only; omega)]
      simp only
      rcases Nat.lt_or_eq_of_le (Nat.le_of_not_lt hc) with h | h
      · exact Or.inl h
      · refine Or.inr ⟨h, ?_⟩
        rw [if_pos h.symm] at h5
        omega
  · rintro ⟨⟨h1, h2, h3, h4⟩, h5⟩
    simp only at h1 h2 h3 h4
    unfold a3 σ3 at h5
    rw [rowMajor_lt_iff (by simp only; omega) (by simp only; omega)] at h5
    simp only at h5
    have hle : ix * ny + iy ≤ rowc zs nx ix * ny + (ny - iy) % ny := by omega
    refine ⟨ix, ⟨by omega, ?_⟩, iy, h2, ?_⟩
    · have := (rowMajor_lt_iff h2 (mirror_lt h2)).1 hle
      have hr : ix ≤ rowc zs nx ix := by omega
      unfold rowc at hr
      cases zs
      · simp only [if_false, Bool.false_eq_true] at hr ⊢; omega
      · simp only [if_true] at hr ⊢
        by_cases h0 : ix = 0
        · subst h0; simp
        · rw [mirror_pos h0 h1] at hr; omega
    · rw [if_neg (by omega)]
      simp only [List.mem_map, List.mem_range'_1, Prod.mk.injEq]
      refine ⟨j, ⟨h3, ?_⟩, by simp⟩
      split_ifs with he <;> omega

theorem nodup_iters3 {zs : Bool} {nx ny nNew : ℕ} : (iters3 zs nx ny nNew).Nodup := by
  unfold iters3
  refine List.nodup_flatMap.2 ⟨fun ix _ => List.nodup_flatMap.2 ⟨fun iy _ => ?_, ?_⟩, ?_⟩
  · simp only
    split_ifs
    · exact List.nodup_nil
    all_goals exact (List.nodup_range').map fun a b h => by simpa using h
  · refine List.nodup_range.imp fun {a b} hab t h1 h2 => hab ?_
    simp only at h1 h2
    split_ifs at h1 h2 <;> simp only [List.not_mem_nil, List.mem_map] at h1 h2
    all_goals
      obtain ⟨_, _, rfl⟩ := h1
      obtain ⟨_, _, h⟩ := h2
      simp only [Prod.mk.injEq] at h
      exact h.2.1.symm
  · refine (List.nodup_range.filter _).imp fun {a b} hab t h1 h2 => hab ?_
    simp only [List.mem_flatMap] at h1 h2
    obtain ⟨_, _, h1⟩ := h1
    obtain ⟨_, _, h2⟩ := h2
    split_ifs at h1 h2 <;> simp only [List.not_mem_nil, List.mem_map] at h1 h2
    all_goals
      obtain ⟨_, _, rfl⟩ := h1
      obtain ⟨_, _, h⟩ := h2
      simp only [Prod.mk.injEq] at h
      exact h.1.symm

/-- The flags of the phase. -/
def xd (zs : Bool) (ix : ℕ) : Bool := if zs then decide (ix ≠ 0) else true

theorem swap3_spec {zs : Bool} {nx ny nNew nStored : ℕ} (hnx : 0 < nx) (hn : nNew < nStored) (kx ky kz : ℝ) (f : ℕ → V) (t : ℕ × ℕ × ℕ) (ht : S3 nx ny nNew t) :
    swap3 mul zs nx ny nNew nStored kx ky kz f (a3 ny nStored t) =
      mul (phase kx ky kz (xd zs t.1) (decide (t.2.1 ≠ 0))) (f (a3 ny nStored (σ3 zs nx ny nNew t))) := by
  refine (swap_spec (S3 nx ny nNew) (a3 ny nStored) (σ3 zs nx ny nNew) (fun t => phase kx ky kz (xd zs t.1) (decide (t.2.1 ≠ 0))) (iters3 zs nx ny nNew) f
    (a3_inj hn) ?_ ?_ ?_ (mem_iters3 hnx hn) nodup_iters3).1 t ht
  · rintro s ⟨h1, h2, h3, h4⟩
    exact ⟨rowc_lt h1, mirror_lt h2, by simp only [σ3]; omega, by simp only [σ3]; omega⟩
  · rintro ⟨s1, s2, s3⟩ ⟨h1, h2, h3, h4⟩
    simp only at h1 h2 h3 h4
    simp only [σ3, rowc_rowc h1, mirror_mirror h2, Prod.mk.injEq, true_and]
    omega
  · rintro s ⟨h1, h2, h3, h4⟩
    simp only [σ3]
    congr 1
    · unfold xd rowc
      split_ifs
      · rw [decide_eq_decide, not_iff_not]
        exact mirror_eq_zero h1
      · rfl
    · simp only [ne_eq, mirror_eq_zero h2]

theorem compact_spec {nOther nNew nStored : ℕ} (hn : nNew < nStored) (f : ℕ → V) (i j : ℕ) (hi : i < nOther) (hj : 1 ≤ j) (hj' : j ≤ nNew) :
    compact conj nOther nNew nStored f (i * nNew + (j - 1)) = conj (f (i * nStored + j)) := by
  refine move_spec (fun t : ℕ × ℕ => t.1 * nStored + t.2) (fun t : ℕ × ℕ => t.1 * nNew + (t.2 - 1)) _ f ?_ (i, j) ?_
  · have key : ∀ a b : ℕ × ℕ, a.1 * nNew + (a.2 - 1) < b.1 * nNew + (b.2 - 1) →
        a.1 * nNew + (a.2 - 1) ≠ b.1 * nStored + b.2 ∧ a.1 * nNew + (a.2 - 1) ≠ b.1 * nNew + (b.2 - 1) := by
      intro a b h
      have : b.1 * nNew ≤ b.1 * nStored := Nat.mul_le_mul_left _ hn.le
      omega
    rw [List.pairwise_flatMap]
    refine ⟨fun i _ => ?_, ?_⟩
    · rw [List.pairwise_map]
      refine (List.pairwise_lt_range').imp_of_mem fun {a b} ha hb hab => key _ _ ?_
      simp only [List.mem_range'_1] at ha hb
      simp only
      omega
    · refine List.pairwise_lt_range.imp fun {a b} hab s hs t ht => key _ _ ?_
      simp only [List.mem_map, List.mem_range'_1] at hs ht
      obtain ⟨j1, hj1, rfl⟩ := hs
      obtain ⟨j2, hj2, rfl⟩ := ht
      simp only
      have : (a + 1) * nNew ≤ b * nNew := Nat.mul_le_mul_right _ hab
      have e : (a + 1) * nNew = a * nNew + nNew := by ring
      omega
  · simp only [List.mem_flatMap, List.mem_range, List.mem_map, List.mem_range'_1]
    exact ⟨i, hi, j, ⟨hj, by omega⟩, rfl⟩

/-! ## One and two dimensions, serial -/

theorem iters2_eq (nx nNew : ℕ) (hnx : 0 < nx) : iters3 true nx 1 nNew = (iters2 nx nNew).map fun t => (t.1, 0, t.2) := by
  unfold iters3 iters2
  rw [List.map_flatMap]
  have hf : ((List.range (nx + 1)).filter fun ix : ℕ => decide (2 * (ix : ℤ) ≤ if True then (nx : ℤ) else (nx : ℤ) - 1)) =
      (List.range (nx + 1)).filter fun ix : ℕ => decide (2 * ix ≤ nx) := by
    refine List.filter_congr fun a _ => ?_
    rw [decide_eq_decide, if_pos trivial]
    omega
  simp only
  rw [hf]
  refine List.flatMap_congr fun i hi => ?_
  simp only [List.mem_filter, List.mem_range, decide_eq_true_eq] at hi
  simp only [List.range_one, List.flatMap_cons, List.flatMap_nil, List.append_nil, rowc, if_true, mul_one, add_zero, Nat.mod_one, Nat.sub_zero]
  rw [if_neg, List.map_map]
  · rfl
  · by_cases h0 : i = 0
    · subst h0; simp
    · rw [mirror_pos h0 (by omega)]; omega

theorem swap2_eq (nx nNew nStored : ℕ) (hnx : 0 < nx) (kx kz : ℝ) (f : ℕ → V) : swap2 mul nx nNew nStored kx kz f = swap3 mul true nx 1 nNew nStored kx 0 kz f := by
  unfold swap2 swap3
  rw [iters2_eq nx nNew hnx, List.foldl_map]
  congr 1
  funext f t
  simp only [if_true, mul_one, add_zero, Nat.mod_one, Nat.sub_zero, rowc, ne_eq, not_true_eq_false, decide_false]
  congr 1
  by_cases h : t.1 = 0
  · simp [h, phase]
  · simp [h, phase]

/-! ## Two dimensions, MPI -/

/-- The positions to be exchanged, (i, j). -/
def SM (nx jm nNew : ℕ) (t : ℕ × ℕ) : Prop := t.1 < nx ∧ jm ≤ t.2 ∧ t.2 < jm + nNew

def aM (nx : ℕ) (t : ℕ × ℕ) : ℕ := t.2 * nx + t.1

def σM (nx jm nNew : ℕ) (t : ℕ × ℕ) : ℕ × ℕ := ((nx - t.1) % nx, nNew + jm + jm - 1 - t.2)

theorem mem_takeWhile_range' (p : ℕ → Bool) (hp : ∀ a b, a ≤ b → p b = true → p a = true) : ∀ (n s j : ℕ), j ∈ (List.range' s n).takeWhile p ↔ (s ≤ j ∧ j < s + n) ∧ p j = true := by
  intro n
  induction n with
  | zero => intro s j; simp
  | succ n ih =>
    intro s j
    rw [List.range'_succ, List.takeWhile_cons]
    by_cases h : p s = true
    · rw [if_pos h, List.mem_cons, ih]
      constructor
      · rintro (rfl | ⟨h1, h2⟩)
        · exact ⟨⟨le_rfl, by omega⟩, h⟩
        · exact ⟨by omega, h2⟩
      · rintro ⟨h1, h2⟩
        by_cases e : j = s
        · exact Or.inl e
        · exact Or.inr ⟨by omega, h2⟩
    · rw [if_neg h]
      simp only [List.not_mem_nil, false_iff]
      rintro ⟨h1, h2⟩
      exact h (hp s j h1.1 h2)

theorem mem_itersM {nx jm nNew : ℕ} (t : ℕ × ℕ) : t ∈ itersM nx jm nNew ↔ SM nx jm nNew t ∧ aM nx t ≤ aM nx (σM nx jm nNew t) := by
  obtain ⟨i, j⟩ := t
  have mono : ∀ i, ∀ a b : ℕ, a ≤ b → (decide (¬ ((nNew + jm + jm - 1 - b) * nx + (nx - i) % nx < b * nx + i)) = true) →
      decide (¬ ((nNew + jm + jm - 1 - a) * nx + (nx - i) % nx < a * nx + i)) = true := by
    intro i a b hab h
    simp only [decide_eq_true_eq, not_lt] at h ⊢
    have h1 : a * nx ≤ b * nx := Nat.mul_le_mul_right _ hab
    have h2 : (nNew + jm + jm - 1 - b) * nx ≤ (nNew + jm + jm - 1 - a) * nx := Nat.mul_le_mul_right _ (by omega)
    omega
  simp only [itersM, List.mem_flatMap, List.mem_range, List.mem_map]
  constructor
  · rintro ⟨i', hi, j', hj, e⟩
    obtain ⟨rfl, rfl⟩ := Prod.mk.inj e
    rw [mem_takeWhile_range' _ (mono i')] at hj
    simp only [decide_eq_true_eq, not_lt] at hj
    exact ⟨⟨hi, hj.1⟩, hj.2⟩
  · rintro ⟨⟨h1, h2⟩, h3⟩
    refine ⟨i, h1, j, ?_, rfl⟩
    rw [mem_takeWhile_range' _ (mono i)]
    simp only [decide_eq_true_eq, not_lt]
    exact ⟨h2, h3⟩

theorem nodup_itersM {nx jm nNew : ℕ} : (itersM nx jm nNew).Nodup := by
  unfold itersM
  refine List.nodup_flatMap.2 ⟨fun i _ => ?_, ?_⟩
  · exact ((List.takeWhile_sublist _).nodup List.nodup_range').map fun a b h => by simpa using h
  · refine List.nodup_range.imp fun {a b} hab t h1 h2 => hab ?_
    simp only [List.mem_map] at h1 h2
    obtain ⟨_, _, rfl⟩ := h1
    obtain ⟨_, _, h⟩ := h2
    simp only [Prod.mk.injEq] at h
    exact h.1.symm

theorem swapM_spec {nx jm nNew : ℕ} (hjm : jm ≤ 1) (kx kz : ℝ) (f : ℕ → V) (t : ℕ × ℕ) (ht : SM nx jm nNew t) :
    swapM mul nx jm nNew kx kz f (aM nx t) = mul (if t.1 ≠ 0 then ph (kx + kz) else ph kz) (f (aM nx (σM nx jm nNew t))) := by
  refine (swap_spec (SM nx jm nNew) (aM nx) (σM nx jm nNew) (fun t => if t.1 ≠ 0 then ph (kx + kz) else ph kz) (itersM nx jm nNew) f
    ?_ ?_ ?_ ?_ mem_itersM nodup_itersM).1 t ht
  · rintro s t ⟨h1, -⟩ ⟨h2, -⟩ e
    obtain ⟨e1, e2⟩ := rowMajor_inj h1 h2 e
    exact Prod.ext e2 e1
  · rintro s ⟨h1, h2, h3⟩
    exact ⟨mirror_lt h1, by simp only [σM]; omega, by simp only [σM]; omega⟩
  · rintro ⟨s1, s2⟩ ⟨h1, h2, h3⟩
    simp only at h1 h2 h3
    simp only [σM, mirror_mirror h1, Prod.mk.injEq, true_and]
    omega
  · rintro s ⟨h1, h2, h3⟩
    simp only [σM, ne_eq, mirror_eq_zero h1]

theorem compactM_spec {nx jm nNew : ℕ} (f : ℕ → V) (i j : ℕ) (hi : i < nx) (hj : jm ≤ j) (hj' : j < jm + nNew) :
    compactM conj nx jm nNew f ((j - jm) * nx + i) = conj (f (j * nx + i)) := by
  refine move_spec (fun t : ℕ × ℕ => t.2 * nx + t.1) (fun t : ℕ × ℕ => (t.2 - jm) * nx + t.1) _ f ?_ (i, j) ?_
  · have key : ∀ a b : ℕ × ℕ, a.1 < nx → b.1 < nx → jm ≤ a.2 → jm ≤ b.2 → (a.1 < b.1 ∨ (a.1 = b.1 ∧ a.2 < b.2)) →
        (a.2 - jm) * nx + a.1 ≠ b.2 * nx + b.1 ∧ (a.2 - jm) * nx + a.1 ≠ (b.2 - jm) * nx + b.1 := by
      intro a b h1 h2 h3 h4 h
      constructor
      · intro e
        obtain ⟨e1, e2⟩ := rowMajor_inj h1 h2 e
        omega
      · intro e
        obtain ⟨e1, e2⟩ := rowMajor_inj h1 h2 e
        omega
    rw [List.pairwise_flatMap]
    refine ⟨fun i hi => ?_, ?_⟩
    · rw [List.pairwise_map]
      refine (List.pairwise_lt_range').imp_of_mem fun {a b} ha hb hab => ?_
      simp only [List.mem_range'_1, List.mem_range] at ha hb hi
      exact key (i, a) (i, b) hi hi ha.1 hb.1 (Or.inr ⟨rfl, hab⟩)
    · refine List.pairwise_lt_range.imp_of_mem fun {a b} ha hb hab s hs t ht => ?_
      simp only [List.mem_map, List.mem_range'_1, List.mem_range] at hs ht ha hb
      obtain ⟨j1, hj1, rfl⟩ := hs
      obtain ⟨j2, hj2, rfl⟩ := ht
      exact key (a, j1) (b, j2) ha hb hj1.1 hj2.1 (Or.inl hab)
  · simp only [List.mem_flatMap, List.mem_range, List.mem_map, List.mem_range'_1]
    exact ⟨i, hi, j, ⟨hj, hj'⟩, rfl⟩

end Mpb.Half

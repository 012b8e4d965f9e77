import Verif.Common
import Mathlib.Data.Nat.Factors
import Mathlib.Data.List.Basic
import Verif.Scheme.Spec

namespace Mpb.Scheme

/-! ### list-split -/

theorem listSub_eq {α : Type*} (L : List α) (s l i : ℕ) (rest : List α) :
    listSub L (s : Int) (l : Int) (i : Int) rest
      = rest.reverse ++ ((L.drop (s - i)).take (l - (i - s))) := by
  induction L generalizing i rest with
  | nil => simp [listSub]
  | cons a L ih =>
    unfold listSub
    have hc : ((i : Int) + 1) = ((i + 1 : ℕ) : Int) := by push_cast; rfl
    by_cases h : (i : Int) ≥ s ∧ (i : Int) < s + l
    · rw [if_pos h, hc, ih]
      obtain ⟨h1, h2⟩ := h
      have e1 : s - i = 0 := by omega
      have e2 : s - (i + 1) = 0 := by omega
      obtain ⟨m, hm⟩ : ∃ m, l - (i - s) = m + 1 := ⟨l - (i - s) - 1, by omega⟩
      have e3 : l - (i + 1 - s) = m := by omega
      rw [e1, e2, e3, hm]
      simp
    · rw [if_neg h, hc, ih]
      by_cases h1 : i < s
      · obtain ⟨m, hm⟩ : ∃ m, s - i = m + 1 := ⟨s - i - 1, by omega⟩
        have e2 : s - (i + 1) = m := by omega
        have e3 : i + 1 - s = 0 := by omega
        have e4 : i - s = 0 := by omega
        rw [hm, e2, e3, e4]
        simp
      · have e0 : l - (i - s) = 0 := by omega
        have e1 : l - (i + 1 - s) = 0 := by omega
        rw [e0, e1]; simp

theorem listSub_neg {α : Type*} (L : List α) (s l i : Int) (rest : List α) (hl : l ≤ 0) :
    listSub L s l i rest = rest.reverse := by
  induction L generalizing i rest with
  | nil => simp [listSub]
  | cons a L ih =>
    unfold listSub
    rw [if_neg (by omega)]
    exact ih _ _

/-- Closed form of a chunk. -/
theorem listSplit_eq {α : Type*} (L : List α) (num i : ℕ) (hi : i < num) :
    listSplit L num i
      = (((i * ((L.length + num - 1) / num) : ℕ) : Int),
          (L.drop (i * ((L.length + num - 1) / num))).take ((L.length + num - 1) / num)) := by
  unfold listSplit
  rw [if_neg (by omega)]
  have hb : Int.tdiv ((L.length : Int) + num + (-1)) num = (((L.length + num - 1) / num : ℕ) : Int) := by
    have : ((L.length : Int) + num + (-1)) = ((L.length + num - 1 : ℕ) : Int) := by omega
    rw [this]; rfl
  simp only [hb]
  set b := (L.length + num - 1) / num with hbdef
  have hs : ((i : Int) * (b : Int)) = ((i * b : ℕ) : Int) := by push_cast; rfl
  rw [hs]
  refine Prod.ext rfl ?_
  by_cases hle : i * b ≤ L.length
  · have : (min (b : Int) ((L.length : Int) - ((i * b : ℕ) : Int)))
        = ((min b (L.length - i * b) : ℕ) : Int) := by omega
    simp only [this]
    have := listSub_eq L (i * b) (min b (L.length - i * b)) 0 []
    simp only [Nat.cast_zero, List.reverse_nil, List.nil_append, Nat.sub_zero, Nat.zero_sub] at this
    rw [this]
    rw [List.take_eq_take_iff]
    simp
  · have hneg : (min (b : Int) ((L.length : Int) - ((i * b : ℕ) : Int))) ≤ 0 := by omega
    simp only []
    rw [listSub_neg _ _ _ _ _ hneg]
    rw [List.drop_eq_nil_of_le (by omega)]
    simp

theorem flatMap_chunks {α : Type*} (L : List α) (b n : ℕ) :
    (List.range n).flatMap (fun i => (L.drop (i * b)).take b) = L.take (n * b) := by
  induction n with
  | zero => simp
  | succ n ih =>
    rw [List.range_succ, List.flatMap_append, ih]
    simp only [List.flatMap_cons, List.flatMap_nil, List.append_nil]
    rw [Nat.succ_mul, List.take_add]

/-! ### band ranges -/

section
variable {F κ : Type*} [Field F] [LinearOrder F]

/-- The one-entry update performed by `ubrd`. -/
def upd1 (inf : F) (k : κ) (o : Option (BandRange F κ)) (f : F) : BandRange F κ :=
  let br : BandRange F κ := match o with
    | none => { min := inf, kmin := none, max := -inf, kmax := none }
    | some b => b
  let newmin := if f < br.min then (f, some k) else (br.min, br.kmin)
  let newmax := if br.max < f then (f, some k) else (br.max, br.kmax)
  { min := newmin.1, kmin := newmin.2, max := newmax.1, kmax := newmax.2 }

theorem ubrd_getElem? (inf : F) (k : κ) (brd : List (BandRange F κ)) (fs : List F)
    (acc : List (BandRange F κ)) (b : ℕ) :
    (ubrd inf k brd fs acc)[b]? =
      if b < acc.length then acc.reverse[b]?
      else match fs[b - acc.length]? with
        | some f => some (upd1 inf k (brd[b - acc.length]?) f)
        | none => brd[b - acc.length]? := by
  induction fs generalizing brd acc with
  | nil =>
    simp only [ubrd, List.getElem?_append, List.length_reverse, List.getElem?_nil]
  | cons f fs ih =>
    simp only [ubrd]
    rw [ih]
    simp only [List.length_cons]
    by_cases h : b < acc.length
    · rw [if_pos (by omega), if_pos h]
      simp [List.getElem?_append, h]
    · rw [if_neg h]
      by_cases h2 : b = acc.length
      · subst h2
        rw [if_pos (by omega)]
        cases brd <;> simp [upd1, List.getElem?_append]
      · rw [if_neg (by omega)]
        obtain ⟨m, hm⟩ : ∃ m, b - acc.length = m + 1 := ⟨b - acc.length - 1, by omega⟩
        have : b - (acc.length + 1) = m := by omega
        rw [this, hm]
        cases brd <;> simp

theorem update_getElem? (inf : F) (k : κ) (brd : List (BandRange F κ)) (fs : List F) (b : ℕ) :
    (updateBandRangeData inf brd fs k)[b]? =
      match fs[b]? with
        | some f => some (upd1 inf k (brd[b]?) f)
        | none => brd[b]? := by
  unfold updateBandRangeData
  rw [ubrd_getElem?]
  simp

theorem runBandRanges_append (inf : F) (t : List (List F × κ)) (row : List F × κ) :
    runBandRanges inf (t ++ [row]) = updateBandRangeData inf (runBandRanges inf t) row.1 row.2 := by
  simp [runBandRanges]

/-! ### gaps -/

theorem ogaps_eq (cur : BandRange F κ) (rest : List (BandRange F κ)) (i : ℕ) (acc : List (ℕ × F × F × F)) :
    ogaps cur rest i acc = acc.reverse ++ ogaps cur rest i [] := by
  induction rest generalizing cur i acc with
  | nil => simp [ogaps]
  | cons n r ih =>
    unfold ogaps
    split
    · rw [ih]
    · rw [ih, ih (acc := [_])]; simp

end

/-! ### next-factor2357 -/

theorem divby_spec (p : ℕ) (hp : 2 ≤ p) : ∀ N : ℕ, 0 < N →
    ∃ d k, divby N p = some d ∧ N = p ^ k * d ∧ ¬ p ∣ d ∧ 0 < d := by
  intro N
  induction N using Nat.strong_induction_on with
  | _ N ih =>
    intro hN
    unfold divby
    rw [if_neg (by omega)]
    by_cases h : N % p = 0
    · rw [if_pos h]
      have hdvd : p ∣ N := Nat.dvd_of_mod_eq_zero h
      have hpos : 0 < N / p := Nat.div_pos (Nat.le_of_dvd hN hdvd) (by omega)
      obtain ⟨d, k, h1, h2, h3, h4⟩ := ih (N / p) (Nat.div_lt_self hN (by omega)) hpos
      refine ⟨d, k + 1, h1, ?_, h3, h4⟩
      calc N = p * (N / p) := (Nat.mul_div_cancel' hdvd).symm
        _ = p * (p ^ k * d) := by rw [← h2]
        _ = p ^ (k + 1) * d := by ring
    · rw [if_neg h]
      exact ⟨N, 0, rfl, by simp, fun hd => h (Nat.mod_eq_zero_of_dvd hd), hN⟩

theorem factor2357_spec (N : ℕ) (hN : 0 < N) :
    ∃ b, factor2357 N = some b ∧ (b = true ↔ Spec.Smooth7 N) := by
  obtain ⟨d2, k2, e2, f2, n2, p2⟩ := divby_spec 2 (by norm_num) N hN
  obtain ⟨d3, k3, e3, f3, n3, p3⟩ := divby_spec 3 (by norm_num) d2 p2
  obtain ⟨d5, k5, e5, f5, n5, p5⟩ := divby_spec 5 (by norm_num) d3 p3
  obtain ⟨d7, k7, e7, f7, n7, p7⟩ := divby_spec 7 (by norm_num) d5 p5
  refine ⟨d7 == 1, by simp [factor2357, e2, e3, e5, e7], ?_⟩
  have hprod : N = 2 ^ k2 * (3 ^ k3 * (5 ^ k5 * (7 ^ k7 * d7))) := by rw [← f7, ← f5, ← f3, ← f2]
  have hd75 : d7 ∣ d5 := ⟨7 ^ k7, by rw [mul_comm]; exact f7⟩
  have hd53 : d5 ∣ d3 := ⟨5 ^ k5, by rw [mul_comm]; exact f5⟩
  have hd32 : d3 ∣ d2 := ⟨3 ^ k3, by rw [mul_comm]; exact f3⟩
  have hd2N : d2 ∣ N := ⟨2 ^ k2, by rw [mul_comm]; exact f2⟩
  simp only [beq_iff_eq]
  constructor
  · intro h1 p hp hdvd
    rw [hprod, h1, mul_one] at hdvd
    rcases (hp.dvd_mul).1 hdvd with h | h
    · have := (Nat.prime_dvd_prime_iff_eq hp Nat.prime_two).1 (hp.dvd_of_dvd_pow h); omega
    rcases (hp.dvd_mul).1 h with h | h
    · have := (Nat.prime_dvd_prime_iff_eq hp Nat.prime_three).1 (hp.dvd_of_dvd_pow h); omega
    rcases (hp.dvd_mul).1 h with h | h
    · have := (Nat.prime_dvd_prime_iff_eq hp Nat.prime_five).1 (hp.dvd_of_dvd_pow h); omega
    · have := (Nat.prime_dvd_prime_iff_eq hp (by norm_num : Nat.Prime 7)).1 (hp.dvd_of_dvd_pow h); omega
  · intro hs
    by_contra hne
    obtain ⟨q, hq, hqd⟩ := Nat.exists_prime_and_dvd hne
    have h5 := hqd.trans hd75
    have h3 := h5.trans hd53
    have h2 := h3.trans hd32
    have hle := hs q hq (h2.trans hd2N)
    have h2' := hq.two_le
    interval_cases q
    · exact n2 h2
    · exact n3 h3
    · exact absurd hq (by norm_num)
    · exact n5 h5
    · exact absurd hq (by norm_num)
    · exact n7 hqd

theorem smooth_two_pow (k : ℕ) : Spec.Smooth7 (2 ^ k) := by
  intro p hp h
  have := (Nat.prime_dvd_prime_iff_eq hp Nat.prime_two).1 (hp.dvd_of_dvd_pow h)
  omega

theorem nextFactor_of_le (fuel N M : ℕ) (hN : 0 < N) (hM : N ≤ M) (hs : Spec.Smooth7 M) (hf : M - N < fuel) :
    ∃ r, nextFactor2357 fuel N = some r ∧ N ≤ r ∧ Spec.Smooth7 r ∧ ∀ m, N ≤ m → m < r → ¬ Spec.Smooth7 m := by
  induction fuel generalizing N with
  | zero => omega
  | succ fuel ih =>
    obtain ⟨b, hb, hiff⟩ := factor2357_spec N hN
    cases b with
    | true =>
      refine ⟨N, by simp [nextFactor2357, hb], le_refl _, hiff.1 rfl, fun m h1 h2 => by omega⟩
    | false =>
      have hns : ¬ Spec.Smooth7 N := fun h => by simpa using hiff.2 h
      have hne : N ≠ M := fun e => hns (e ▸ hs)
      obtain ⟨r, h1, h2, h3, h4⟩ := ih (N + 1) (by omega) (by omega) (by omega)
      refine ⟨r, by simp [nextFactor2357, hb, h1], by omega, h3, fun m hm hmr => ?_⟩
      by_cases e : m = N
      · rw [e]; exact hns
      · exact h4 m (by omega) hmr

theorem nextFactor_unique (fuel N r : ℕ) (h : nextFactor2357 fuel N = some r) (fuel' : ℕ) (hf : fuel ≤ fuel') :
    nextFactor2357 fuel' N = some r := by
  induction fuel generalizing N fuel' with
  | zero => simp [nextFactor2357] at h
  | succ fuel ih =>
    obtain ⟨f, rfl⟩ : ∃ f, fuel' = f + 1 := ⟨fuel' - 1, by omega⟩
    cases hb : factor2357 N with
    | none => simp [nextFactor2357, hb] at h
    | some b =>
      cases b with
      | true => simp [nextFactor2357, hb] at h ⊢; exact h
      | false =>
        simp [nextFactor2357, hb] at h ⊢
        exact ih _ h _ (by omega)

end Mpb.Scheme

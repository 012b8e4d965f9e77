import Verif.Scheme.Lemmas

/-!
# Property theorems for the Scheme-level helpers: C55, C56, C58
-/

namespace Mpb.Scheme

open Spec

/-! ## C55: splitting the k-points -/

/-- **C55** (no k-point lost, duplicated or reordered): the chunks of indices `0 .. num-1`, concatenated, are the list. -/
theorem C55_chunks_concat {α : Type*} (L : List α) (num : ℕ) (hnum : 0 < num) :
    (List.range num).flatMap (fun i : ℕ => (listSplit L (num : Int) (i : Int)).2) = L := by
  have h : (List.range num).flatMap (fun i : ℕ => (listSplit L (num : Int) (i : Int)).2)
      = (List.range num).flatMap (fun i => (L.drop (i * ((L.length + num - 1) / num))).take
          ((L.length + num - 1) / num)) := by
    apply List.flatMap_congr
    intro i hi
    rw [listSplit_eq L num i (List.mem_range.1 hi)]
  rw [h, flatMap_chunks, List.take_of_length_le]
  have h1 := Nat.div_add_mod (L.length + num - 1) num
  have h2 := Nat.mod_lt (L.length + num - 1) hnum
  have h3 : num * ((L.length + num - 1) / num) + num ≥ L.length + num := by omega
  omega

/-- **C55** (the first index is right): element `j` of chunk `i` is element `start + j` of the list, where `start` is the
returned first index, and chunks have at most `⌈length/num⌉` elements. -/
theorem C55_chunk_positions {α : Type*} (L : List α) (num i : ℕ) (hi : i < num) (j : ℕ)
    (hj : j < (listSplit L num i).2.length) :
    ∃ s : ℕ, (listSplit L num i).1 = (s : Int) ∧ L[s + j]? = (listSplit L num i).2[j]? ∧
      (listSplit L num i).2.length ≤ (L.length + num - 1) / num := by
  rw [listSplit_eq L num i hi] at hj ⊢
  refine ⟨_, rfl, ?_, ?_⟩
  · have hj' : j < (L.length + num - 1) / num := lt_of_lt_of_le hj (by simp)
    rw [List.getElem?_take_of_lt hj', List.getElem?_drop]
  · simp

/-- **C55** (out of range): a chunk index that is negative or `≥ num` gives an empty chunk starting at the end. -/
theorem C55_out_of_range {α : Type*} (L : List α) (num index : Int) (h : index < 0 ∨ num ≤ index) :
    listSplit L num index = ((L.length : Int), []) := by
  unfold listSplit
  rw [if_pos (by omega)]

example : listSplit [10, 11, 12, 13, 14] 3 1 = (2, [12, 13]) := by decide
example : (List.range 4).flatMap (fun i : ℕ => (listSplit [10, 11, 12, 13, 14] 4 (i : Int)).2) = [10, 11, 12, 13, 14] := by
  decide

/-! ## C56: band ranges and gaps -/

section
variable {F κ : Type*} [Field F] [LinearOrder F]

/-- **C56** (ranges): after any sequence of k-points whose frequencies lie strictly between `-infinity` and `infinity`,
an entry exists for exactly the bands that were computed at some k-point, and it is the true range of that band. -/
theorem C56_ranges (inf : F) (table : List (List F × κ))
    (hb : ∀ row ∈ table, ∀ f ∈ row.1, -inf < f ∧ f < inf) (b : ℕ) :
    (∀ r, (runBandRanges inf table)[b]? = some r → IsRange table b r) ∧
    ((runBandRanges inf table)[b]? = none ↔ ∀ f k, ¬ IsFreq table b f k) := by
  induction table using List.reverseRecOn with
  | nil =>
    constructor
    · intro r h; simp [runBandRanges] at h
    · simp [runBandRanges, IsFreq]
  | append_singleton t row ih =>
    have ih := ih (fun r hr => hb r (by simp [hr]))
    have hrow := hb row (by simp)
    have hmem : ∀ f k, IsFreq (t ++ [row]) b f k ↔ IsFreq t b f k ∨ (row.1[b]? = some f ∧ row.2 = k) := by
      intro f k
      simp only [IsFreq, List.mem_append, List.mem_singleton]
      constructor
      · rintro ⟨r, hr | rfl, h⟩
        · exact Or.inl ⟨r, hr, h⟩
        · exact Or.inr h
      · rintro (⟨r, hr, h⟩ | h)
        · exact ⟨r, Or.inl hr, h⟩
        · exact ⟨row, Or.inr rfl, h⟩
    rw [runBandRanges_append, update_getElem?]
    cases hf : row.1[b]? with
    | none =>
      simp only
      have hsame : ∀ f k, IsFreq (t ++ [row]) b f k ↔ IsFreq t b f k := by
        intro f k; rw [hmem]; simp [hf]
      constructor
      · intro r hr
        have := ih.1 r hr
        exact ⟨by simpa [hsame] using this.min_attained, by simpa [hsame] using this.max_attained,
          by simpa [hsame] using this.bounds⟩
      · simpa [hsame] using ih.2
    | some f =>
      simp only
      have hfb := hrow f (List.mem_of_getElem? hf)
      constructor
      · intro r hr
        simp only [Option.some.injEq] at hr
        subst hr
        cases ho : (runBandRanges inf t)[b]? with
        | none =>
          have hno := ih.2.1 ho
          have hk : ∀ g k, IsFreq (t ++ [row]) b g k ↔ (g = f ∧ row.2 = k) := by
            intro g k; rw [hmem]; simp [hno, hf, eq_comm]
          simp only [upd1, hfb.1, hfb.2, if_true]
          exact ⟨⟨row.2, rfl, by simp [hk]⟩, ⟨row.2, rfl, by simp [hk]⟩,
            fun g k h => by rw [hk] at h; simp [h.1]⟩
        | some r0 =>
          have hr0 := ih.1 r0 ho
          simp only [upd1]
          refine ⟨?_, ?_, ?_⟩
          · by_cases h : f < r0.min
            · rw [if_pos h]; exact ⟨row.2, rfl, by rw [hmem]; right; exact ⟨hf, rfl⟩⟩
            · rw [if_neg h]
              obtain ⟨k, h1, h2⟩ := hr0.min_attained
              exact ⟨k, h1, by rw [hmem]; left; exact h2⟩
          · by_cases h : r0.max < f
            · rw [if_pos h]; exact ⟨row.2, rfl, by rw [hmem]; right; exact ⟨hf, rfl⟩⟩
            · rw [if_neg h]
              obtain ⟨k, h1, h2⟩ := hr0.max_attained
              exact ⟨k, h1, by rw [hmem]; left; exact h2⟩
          · intro g k hg
            rw [hmem] at hg
            rcases hg with hg | ⟨hg, _⟩
            · have := hr0.bounds g k hg
              constructor
              · dsimp only
                split
                · next h => exact le_trans (le_of_lt h) this.1
                · exact this.1
              · dsimp only
                split
                · next h => exact le_trans this.2 (le_of_lt h)
                · exact this.2
            · have : g = f := by rw [hf] at hg; exact (Option.some.inj hg).symm
              subst this
              constructor
              · dsimp only
                split
                · exact le_refl _
                · next h => exact not_lt.1 h
              · dsimp only
                split
                · exact le_refl _
                · next h => exact not_lt.1 h
      · constructor
        · intro h; simp at h
        · intro h; exact absurd ((hmem f row.2).2 (Or.inr ⟨hf, rfl⟩)) (h f row.2)

example : runBandRanges (κ := ℕ) (100 : ℚ) [([1, 5], 0), ([3, 4], 1), ([2, 7], 2)]
    = [⟨1, some 0, 3, some 1⟩, ⟨4, some 1, 7, some 2⟩] := by decide

/-- **C56** (gaps): `output-gaps` lists, in order, exactly the consecutive bands `i, i+1` with
`max(band i) < min(band i+1)`, with the gap as a percentage of the mid-gap frequency. -/
theorem C56_gaps (brd : List (BandRange F κ)) :
    outputGaps brd = (brd.zip brd.tail).zipIdx.filterMap (fun x =>
      if x.1.1.max < x.1.2.min then
        some (x.2 + 1, (x.1.2.min - x.1.1.max) * 200 / (x.1.1.max + x.1.2.min), x.1.1.max, x.1.2.min)
      else none) := by
  cases brd with
  | nil => simp [outputGaps]
  | cons b bs =>
    have key : ∀ (bs : List (BandRange F κ)) (b : BandRange F κ) (i : ℕ),
        ogaps b bs (i + 1) [] = (((b :: bs).zip bs).zipIdx i).filterMap (fun x =>
          if x.1.1.max < x.1.2.min then
            some (x.2 + 1, (x.1.2.min - x.1.1.max) * 200 / (x.1.1.max + x.1.2.min), x.1.1.max, x.1.2.min)
          else none) := by
      intro bs
      induction bs with
      | nil => intro b i; simp [ogaps]
      | cons n r ih =>
        intro b i
        unfold ogaps
        rw [List.zip_cons_cons, List.zipIdx_cons, List.filterMap_cons]
        by_cases h : n.min ≤ b.max
        · rw [if_pos h, if_neg (not_lt.2 h), ih]
        · rw [if_neg h, if_pos (not_le.1 h), ogaps_eq, ih]
          simp [mul_comm, add_comm]
    exact key bs b 0

/-- **C56** (membership form): a triple is listed iff it belongs to a pair of consecutive bands that do not overlap. -/
theorem C56_gap_iff (brd : List (BandRange F κ)) (i : ℕ) (p lo hi : F) :
    (i, p, lo, hi) ∈ outputGaps brd ↔
      ∃ b1 b2, 1 ≤ i ∧ brd[i - 1]? = some b1 ∧ brd[i]? = some b2 ∧ b1.max < b2.min ∧
        lo = b1.max ∧ hi = b2.min ∧ p = (hi - lo) * 200 / (lo + hi) := by
  rw [C56_gaps]
  simp only [List.mem_filterMap]
  constructor
  · rintro ⟨⟨⟨b1, b2⟩, j⟩, hm, h⟩
    rw [List.mem_zipIdx_iff_getElem?] at hm
    simp only [Option.ite_none_right_eq_some, Option.some.injEq, Prod.mk.injEq] at h
    obtain ⟨hlt, rfl, rfl, rfl, rfl⟩ := h
    simp only [List.getElem?_zip_eq_some, List.getElem?_tail] at hm
    exact ⟨b1, b2, by omega, by simpa using hm.1, hm.2, hlt, rfl, rfl, rfl⟩
  · rintro ⟨b1, b2, h1, e1, e2, hlt, rfl, rfl, rfl⟩
    refine ⟨((b1, b2), i - 1), ?_, ?_⟩
    · rw [List.mem_zipIdx_iff_getElem?]
      simp only [List.getElem?_zip_eq_some, List.getElem?_tail]
      exact ⟨e1, by rw [Nat.sub_add_cancel h1]; exact e2⟩
    · simp [hlt, Nat.sub_add_cancel h1]

/-- **C56** (`retrieve-gap` agrees with the printed gap): it returns a value for exactly the bands `1 .. n-1`, that value
is the gap in percent, and where a gap was listed it is the listed percentage. -/
theorem C56_retrieve_gap [CharZero F] (brd : List (BandRange F κ)) (i : ℕ) :
    (retrieveGap brd i = none ↔ i = 0 ∨ brd.length ≤ i) ∧
    ∀ p lo hi, (i, p, lo, hi) ∈ outputGaps brd → retrieveGap brd i = some p := by
  constructor
  · unfold retrieveGap
    by_cases h1 : i + 1 > brd.length
    · rw [if_pos h1]; simp; omega
    · rw [if_neg h1]
      by_cases h2 : i = 0
      · simp [h2]
      · rw [if_neg h2]
        have e1 : i - 1 < brd.length := by omega
        have e2 : i < brd.length := by omega
        simp [List.getElem?_eq_getElem e1, List.getElem?_eq_getElem e2]; omega
  · intro p lo hi h
    rw [C56_gap_iff] at h
    obtain ⟨b1, b2, h1, e1, e2, hlt, rfl, rfl, rfl⟩ := h
    have hl : i < brd.length := (List.getElem?_eq_some_iff.1 e2).1
    unfold retrieveGap
    rw [if_neg (by omega), if_neg (by omega), e1, e2]
    simp only [Option.some.injEq]
    by_cases h0 : b1.max + b2.min = 0
    · rw [h0]; simp
    · field_simp
      norm_num
      ring

example : outputGaps (κ := ℕ) [(⟨1, some 0, 3, some 1⟩ : BandRange ℚ ℕ), ⟨5, some 1, 7, some 2⟩, ⟨6, none, 8, none⟩]
    = [(1, 50, 3, 5)] := by decide +kernel
example : retrieveGap (κ := ℕ) [(⟨1, some 0, 3, some 1⟩ : BandRange ℚ ℕ), ⟨5, some 1, 7, some 2⟩] 1 = some 50 := by
  decide +kernel

end

/-! ## C58: next highly composite size -/

/-- **C58**: for every `N ≥ 1` the search stops, and its result is the smallest integer `≥ N` without a prime factor
larger than 7. -/
theorem C58_next_factor (N : ℕ) (hN : 0 < N) :
    ∃ r, (∃ fuel, ∀ fuel' ≥ fuel, nextFactor2357 fuel' N = some r) ∧
      N ≤ r ∧ Smooth7 r ∧ ∀ m, N ≤ m → m < r → ¬ Smooth7 m := by
  obtain ⟨r, h1, h2⟩ := nextFactor_of_le (2 ^ N - N + 1) N (2 ^ N) hN (Nat.lt_two_pow_self).le
    (smooth_two_pow N) (by omega)
  exact ⟨r, ⟨_, fun f' hf => nextFactor_unique _ _ _ h1 _ hf⟩, h2⟩

/-- **C58** (bad input): for `N = 0` the Scheme loop does not terminate (no amount of fuel gives a result). -/
theorem C58_zero_diverges (fuel : ℕ) : nextFactor2357 fuel 0 = none := by
  cases fuel with
  | zero => rfl
  | succ f =>
    have h : divby 0 2 = none := by unfold divby; simp
    have h2 : factor2357 0 = none := by unfold factor2357; simp [h]
    unfold nextFactor2357; simp [h2]

example : nextFactor2357 10 11 = some 12 := by decide +kernel
example : nextFactor2357 10 97 = some 98 := by decide +kernel

/-- **C58** (`optimize-grid-size!`): let `base` be the grid size that follows from the resolution (libctl's
`get-grid-size` while the variable `grid-size` is false), no component of it zero.  Whatever the variable held before,
the call ends, and the variable then holds, in each direction, the smallest integer at least as large as `base` without
a prime factor above 7.  A second call leaves the variable as it is. -/
theorem C58_optimize_grid_size (get : Option (ℕ × ℕ × ℕ) → ℕ × ℕ × ℕ) (old : Option (ℕ × ℕ × ℕ))
    (hx : 0 < (get none).1) (hy : 0 < (get none).2.1) (hz : 0 < (get none).2.2) :
    ∃ r : ℕ × ℕ × ℕ, (∃ fuel, ∀ fuel' ≥ fuel, optimizeGridSize fuel' get old = some r ∧
        optimizeGridSize fuel' get (some r) = some r) ∧
      ((get none).1 ≤ r.1 ∧ Smooth7 r.1 ∧ ∀ m, (get none).1 ≤ m → m < r.1 → ¬ Smooth7 m) ∧
      ((get none).2.1 ≤ r.2.1 ∧ Smooth7 r.2.1 ∧ ∀ m, (get none).2.1 ≤ m → m < r.2.1 → ¬ Smooth7 m) ∧
      ((get none).2.2 ≤ r.2.2 ∧ Smooth7 r.2.2 ∧ ∀ m, (get none).2.2 ≤ m → m < r.2.2 → ¬ Smooth7 m) := by
  obtain ⟨a, ⟨fa, ha⟩, ha'⟩ := C58_next_factor _ hx
  obtain ⟨b, ⟨fb, hb⟩, hb'⟩ := C58_next_factor _ hy
  obtain ⟨c, ⟨fc, hc⟩, hc'⟩ := C58_next_factor _ hz
  have key : ∀ (o : Option (ℕ × ℕ × ℕ)) (f : ℕ), f ≥ fa + fb + fc →
      optimizeGridSize f get o = some (a, b, c) := by
    intro o f hf
    have ho : (o.filter fun _ => false) = none := by cases o <;> rfl
    unfold optimizeGridSize factorVec
    simp [ho, ha f (by omega), hb f (by omega), hc f (by omega)]
  exact ⟨(a, b, c), ⟨fa + fb + fc, fun f hf => ⟨key _ f hf, key _ f hf⟩⟩, ha', hb', hc'⟩

/-- Setting the variable to the rounded size by hand is a fixed point of the rounding: a size without a prime factor
above 7 is left as it is. -/
theorem C58_smooth_kept (N : ℕ) (hN : 0 < N) (hs : Smooth7 N) :
    ∃ fuel, ∀ fuel' ≥ fuel, nextFactor2357 fuel' N = some N := by
  obtain ⟨r, h1, h2, -, h4⟩ := C58_next_factor N hN
  rcases h2.eq_or_lt with h | h
  · exact h ▸ h1
  · exact absurd hs (h4 N le_rfl h)

/-- **C58** (bad input): a resolution or a lattice for which `get-grid-size` has a zero component makes
`optimize-grid-size!` run for ever. -/
theorem C58_optimize_zero_diverges (get : Option (ℕ × ℕ × ℕ) → ℕ × ℕ × ℕ) (old : Option (ℕ × ℕ × ℕ))
    (h : (get none).1 = 0) (fuel : ℕ) : optimizeGridSize fuel get old = none := by
  have ho : (old.filter fun _ => false) = none := by cases old <;> rfl
  unfold optimizeGridSize factorVec
  simp [ho, h, C58_zero_diverges]

example : optimizeGridSize 10 (fun o => o.getD (11, 32, 97)) (some (1, 1, 1)) = some (12, 32, 98) := by decide +kernel

end Mpb.Scheme

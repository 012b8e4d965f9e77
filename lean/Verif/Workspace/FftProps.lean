import Verif.Workspace.Fft

/-! # C65: the FFT scratch array holds the bands transformed at a time -/

namespace Mpb.Workspace.Fft

theorem chunks_cover (numFft p : ℕ) (h : 0 < numFft) : ∀ (k start : ℕ), p - start ≤ k →
    (chunks numFft p start).flatMap (fun c => List.range' c.1 c.2) = List.range' start (p - start) := by
  intro k
  induction k with
  | zero =>
    intro start hk
    rw [chunks, dif_neg (by omega), show p - start = 0 by omega]
    rfl
  | succ k ih =>
    intro start hk
    rw [chunks]
    by_cases hs : start < p
    · rw [dif_pos ⟨hs, h⟩, List.flatMap_cons, ih (start + numFft) (by omega)]
      by_cases hle : numFft ≤ p - start
      · rw [min_eq_left hle, List.range'_append_1]
        congr 1; omega
      · rw [min_eq_right (by omega), show p - (start + numFft) = 0 by omega]
        simp
    · rw [dif_neg (by omega), show p - start = 0 by omega]
      rfl

theorem chunks_le (numFft p : ℕ) : ∀ (k start : ℕ), p - start ≤ k → ∀ c ∈ chunks numFft p start, c.2 ≤ numFft := by
  intro k
  induction k with
  | zero =>
    intro start hk c hc
    rw [chunks, dif_neg (by omega)] at hc
    simp at hc
  | succ k ih =>
    intro start hk c hc
    rw [chunks] at hc
    split at hc
    · rename_i h
      rcases List.mem_cons.1 hc with rfl | hc
      · exact min_le_left _ _
      · exact ih (start + numFft) (by omega) c hc
    · simp at hc

theorem opTr_cover (d : D) (ib p : ℕ) (h : 0 < d.numFft) : (opTr d ib p).flatMap Tr.bands = List.range' ib p := by
  have key : (opTr d ib p).flatMap Tr.bands = ((chunks d.numFft p 0).flatMap (fun c => List.range' c.1 c.2)).map (ib + ·) := by
    unfold opTr
    rw [List.flatMap_map, List.map_flatMap]
    congr 1
    funext c
    simp only [Tr.bands, List.map_add_range']
  rw [key, chunks_cover _ _ h p 0 (by omega), List.map_add_range']
  simp

theorem opTr_fit (d : D) (ib p cap : ℕ) (h : d.numFft ≤ cap) : AllFit cap (opTr d ib p) := by
  intro t ht
  unfold opTr at ht
  obtain ⟨c, hc, rfl⟩ := List.mem_map.1 ht
  exact (chunks_le _ _ p 0 (by omega) c hc).trans h

/-- The number of bands the scratch array made by init-params with block size `bs` holds. -/
def capacity (bs : ℕ) : ℕ := (createD bs).maxFft

theorem capacity_eq (bs : ℕ) : capacity bs = min bs 20 := rfl

/-- **C65**, operators.  Whatever the block size (at least 1) and however many bands (at least 1) the solver currently works on, the Maxwell operator, the operator of the inverse
permeability, the cross-product operator of the group velocity and the preconditioner transform each of the `p` columns exactly once and in order, never more at a time than fit the
scratch array. -/
theorem C65_operators (bs n ib p : ℕ) (hbs : 1 ≤ bs) (hn : 1 ≤ n) :
    AllFit (capacity bs) (opTr (setNumBands (createD bs) n) ib p) ∧
      (opTr (setNumBands (createD bs) n) ib p).flatMap Tr.bands = List.range' ib p := by
  have e : (setNumBands (createD bs) n).numFft = min n (min bs 20) := rfl
  refine ⟨opTr_fit _ _ _ _ ?_, opTr_cover _ _ _ ?_⟩
  · rw [e, capacity_eq]; exact min_le_right _ _
  · rw [e]; omega

example : opTr (setNumBands (createD 50) 50) 100 50 = [⟨100, 20⟩, ⟨120, 20⟩, ⟨140, 10⟩] := by
  simp [opTr, chunks, createD, setNumBands, numFftBands]

theorem gvLoop_spec (mu : Bool) (bs nb : ℕ) (hbs : 1 ≤ bs) (hmu : mu = false ∨ bs ≤ 20) : ∀ (k ib : ℕ), nb - ib ≤ k →
    (∀ c ∈ gvLoop mu bs nb ib (createD bs, bs), AllFit (capacity bs) c.1 ∧ AllFit (capacity bs) c.2) ∧
    (gvLoop mu bs nb ib (createD bs, bs)).flatMap (fun c => c.2.flatMap Tr.bands) = List.range' ib (nb - ib) ∧
    (mu = true → (gvLoop mu bs nb ib (createD bs, bs)).flatMap (fun c => c.1.flatMap Tr.bands) = List.range' ib (nb - ib)) := by
  intro k
  induction k with
  | zero =>
    intro ib hk
    rw [gvLoop, dif_neg (by omega), show nb - ib = 0 by omega]
    simp
  | succ k ih =>
    intro ib hk
    by_cases h : ib < nb
    swap
    · rw [gvLoop, dif_neg (by omega), show nb - ib = 0 by omega]
      simp
    rw [gvLoop, dif_pos ⟨h, by omega⟩]
    by_cases hlast : ib + bs > nb
    · have et : shrinkGv nb ib (createD bs, bs) = (setNumBands (createD bs) (nb - ib), nb - ib) := by
        unfold shrinkGv; rw [if_pos (show ib + (createD bs).numBands > nb from hlast)]
      obtain ⟨o1, o2⟩ := C65_operators bs (nb - ib) ib (nb - ib) hbs (by omega)
      have en : ∀ t, gvLoop mu bs nb (ib + bs) t = [] := by
        intro t; rw [gvLoop, dif_neg (by omega)]
      simp only [et, en, List.mem_singleton, List.flatMap_cons, List.flatMap_nil, List.append_nil]
      refine ⟨?_, o2, ?_⟩
      · rintro c rfl
        refine ⟨?_, o1⟩
        intro t ht
        unfold hFromB at ht
        split at ht
        · rename_i hm
          rcases List.mem_singleton.1 ht with rfl
          rw [capacity_eq]
          rcases hmu with hmu | hmu
          · rw [hmu] at hm; simp at hm
          · simp only; omega
        · simp at ht
      · intro hm
        simp [hFromB, hm, Tr.bands]
    · have et : shrinkGv nb ib (createD bs, bs) = (createD bs, bs) := by
        unfold shrinkGv; rw [if_neg (show ¬ ib + (createD bs).numBands > nb from hlast)]
      obtain ⟨o1, o2⟩ := C65_operators bs bs ib bs hbs hbs
      have ed : setNumBands (createD bs) bs = createD bs := rfl
      rw [ed] at o1 o2
      obtain ⟨i1, i2, i3⟩ := ih (ib + bs) (by omega)
      simp only [et]
      refine ⟨?_, ?_, ?_⟩
      · intro c hc
        rcases List.mem_cons.1 hc with rfl | hc
        · refine ⟨?_, o1⟩
          intro t ht
          unfold hFromB at ht
          split at ht
          · rename_i hm
            rcases List.mem_singleton.1 ht with rfl
            rw [capacity_eq]
            rcases hmu with hmu | hmu
            · rw [hmu] at hm; simp at hm
            · simp only; omega
          · simp at ht
        · exact i1 c hc
      · rw [List.flatMap_cons, o2, i2, List.range'_append_1]
        congr 1; omega
      · intro hm
        rw [List.flatMap_cons, i3 hm]
        simp only [hFromB, hm, if_true, List.flatMap_cons, List.flatMap_nil, List.append_nil, Tr.bands]
        rw [List.range'_append_1]
        congr 1; omega

/-- **C65** (partial), group velocities.  For every number of bands and every block size: without a permeability, or with blocks of at most 20 bands, all transforms of
compute-group-velocity-component fit the scratch array, and every band is treated exactly once. -/
theorem C65_groupvel_partial (mu : Bool) (bs nb : ℕ) (hbs : 1 ≤ bs) (hmu : mu = false ∨ bs ≤ 20) :
    (∀ c ∈ groupVel mu bs nb, AllFit (capacity bs) c.1 ∧ AllFit (capacity bs) c.2) ∧
    (groupVel mu bs nb).flatMap (fun c => c.2.flatMap Tr.bands) = List.range nb ∧
    (mu = true → (groupVel mu bs nb).flatMap (fun c => c.1.flatMap Tr.bands) = List.range nb) := by
  have := gvLoop_spec mu bs nb hbs hmu nb 0 (by omega)
  simpa [groupVel, List.range_eq_range'] using this

example : (groupVel true 4 10).map Prod.fst = [[⟨0, 4⟩], [⟨4, 4⟩], [⟨8, 2⟩]] := by
  simp [groupVel, gvLoop, shrinkGv, hFromB, createD, setNumBands]

/-- **C65, refuted**: with a permeability and blocks of more than 20 bands (e.g. eigensolver-block-size 0 and more than 20 bands), the first block of
compute-group-velocity-component writes all its bands into the array for 20. -/
theorem C65_groupvel_refuted (bs nb : ℕ) (h : 20 < bs) (hnb : bs ≤ nb) :
    ∃ c ∈ groupVel true bs nb, ¬ AllFit (capacity bs) c.1 := by
  refine ⟨(hFromB true 0 bs, opTr (createD bs) 0 bs), ?_, ?_⟩
  · unfold groupVel
    rw [gvLoop, dif_pos ⟨by omega, by omega⟩]
    have et : shrinkGv nb 0 (createD bs, bs) = (createD bs, bs) := by
      unfold shrinkGv; rw [if_neg (show ¬ 0 + (createD bs).numBands > nb by show ¬ 0 + bs > nb; omega)]
    simp only [et]
    exact List.mem_cons_self
  · intro hf
    have := hf ⟨0, bs⟩ (by simp [hFromB])
    rw [capacity_eq] at this
    simp only at this
    omega

theorem dotLoop_spec (bs final : ℕ) (hbs : 1 ≤ bs) (hfit : bs ≤ 20) : ∀ (k ib : ℕ), final - ib ≤ k →
    (∀ c ∈ dotLoop bs final ib (createD bs, bs), AllFit (capacity bs) c) ∧
    (dotLoop bs final ib (createD bs, bs)).flatMap (fun c => c.flatMap Tr.bands) = List.range' ib (final - ib) := by
  intro k
  induction k with
  | zero =>
    intro ib hk
    rw [dotLoop, dif_neg (by omega), show final - ib = 0 by omega]
    simp
  | succ k ih =>
    intro ib hk
    by_cases h : ib < final
    swap
    · rw [dotLoop, dif_neg (by omega), show final - ib = 0 by omega]
      simp
    rw [dotLoop, dif_pos ⟨h, by omega⟩]
    by_cases hlast : ib + bs > final
    · have et : shrinkDot bs final ib (createD bs, bs) = (setNumBands (createD bs) (final - ib), final - ib) := by
        unfold shrinkDot; rw [if_pos hlast]
      have en : ∀ t, dotLoop bs final (ib + bs) t = [] := by
        intro t; rw [dotLoop, dif_neg (by omega)]
      simp only [et, en, hFromB, if_true]
      refine ⟨?_, by simp [Tr.bands]⟩
      intro c hc t ht
      rcases List.mem_singleton.1 hc with rfl
      rcases List.mem_singleton.1 ht with rfl
      rw [capacity_eq]
      simp only; omega
    · have et : shrinkDot bs final ib (createD bs, bs) = (createD bs, bs) := by
        unfold shrinkDot; rw [if_neg hlast]
      obtain ⟨i1, i2⟩ := ih (ib + bs) (by omega)
      simp only [et, hFromB, if_true]
      refine ⟨?_, ?_⟩
      · intro c hc
        rcases List.mem_cons.1 hc with rfl | hc
        · intro t ht
          rcases List.mem_singleton.1 ht with rfl
          rw [capacity_eq]
          simp only; omega
        · exact i1 c hc
      · rw [List.flatMap_cons, i2]
        simp only [List.flatMap_cons, List.flatMap_nil, List.append_nil, Tr.bands]
        rw [List.range'_append_1]
        congr 1; omega

/-- **C65** (partial), dot-eigenvectors with a permeability: with blocks of at most 20 bands everything fits, and each of the `n` bands is treated exactly once. -/
theorem C65_dot_partial (bs first n : ℕ) (hbs : 1 ≤ bs) (hfit : bs ≤ 20) :
    (∀ c ∈ dotEig bs first n, AllFit (capacity bs) c) ∧ (dotEig bs first n).flatMap (fun c => c.flatMap Tr.bands) = List.range' first n := by
  have := dotLoop_spec bs (first + n) hbs hfit n first (by omega)
  simpa [dotEig, show first + n - first = n by omega] using this

/-- **C65, refuted**: with a permeability and blocks of more than 20 bands, dot-eigenvectors of more than 20 bands writes past the scratch array. -/
theorem C65_dot_refuted (bs first n : ℕ) (h : 20 < bs) (hn : 20 < n) : ∃ c ∈ dotEig bs first n, ¬ AllFit (capacity bs) c := by
  unfold dotEig
  rw [dotLoop, dif_pos ⟨by omega, by omega⟩]
  refine ⟨_, List.mem_cons_self, ?_⟩
  intro hf
  have := hf ⟨first, (shrinkDot bs (first + n) first (createD bs, bs)).2⟩ (by simp [hFromB])
  rw [capacity_eq] at this
  unfold shrinkDot at this
  split at this <;> simp only at this <;> omega

example : (dotEig 11 3 15).map (fun c => c.map Tr.count) = [[11], [4]] := by
  simp [dotEig, dotLoop, shrinkDot, hFromB, createD, setNumBands]

end Mpb.Workspace.Fft

import Verif.Parity.Model

/-! # Property C16: parity requests are sanitised consistently -/

namespace Mpb.Parity

theorem has_twoPow (p : BitVec 32) (i : ℕ) (hi : i < 32) : has p (BitVec.twoPow 32 i) ↔ p.getLsbD i = true := by
  unfold has
  rw [BitVec.and_twoPow]
  split
  · rename_i h
    simp only [h, iff_true]
    intro hc
    have := congrArg (fun b : BitVec 32 => b.getLsbD i) hc
    simp [BitVec.getLsbD_twoPow, hi] at this
  · rename_i h
    simp [h]

theorem has_evenZ (p : BitVec 32) : has p evenZ ↔ p.getLsbD 0 = true := has_twoPow p 0 (by omega)
theorem has_oddZ (p : BitVec 32) : has p oddZ ↔ p.getLsbD 1 = true := has_twoPow p 1 (by omega)
theorem has_evenY (p : BitVec 32) : has p evenY ↔ p.getLsbD 2 = true := has_twoPow p 2 (by omega)
theorem has_oddY (p : BitVec 32) : has p oddY ↔ p.getLsbD 3 = true := has_twoPow p 3 (by omega)

/-- Bits of `p & ~3`. -/
theorem clearZ_bit (p : BitVec 32) (i : ℕ) (hi : i < 32) :
    (p &&& ~~~(evenZ ||| oddZ)).getLsbD i = (p.getLsbD i && decide (2 ≤ i)) := by
  have : ∀ i : Fin 32, (~~~(evenZ ||| oddZ)).getLsbD i = decide (2 ≤ i.val) := by decide
  rw [BitVec.getLsbD_and, this ⟨i, hi⟩]

/-- Bits of `p & ~12`. -/
theorem clearY_bit (p : BitVec 32) (i : ℕ) (hi : i < 32) :
    (p &&& ~~~(evenY ||| oddY)).getLsbD i = (p.getLsbD i && decide (i < 2 ∨ 4 ≤ i)) := by
  have : ∀ i : Fin 32, (~~~(evenY ||| oddY)).getLsbD i = decide (i.val < 2 ∨ 4 ≤ i.val) := by decide
  rw [BitVec.getLsbD_and, this ⟨i, hi⟩]

theorem clearZ_has (p : BitVec 32) : ¬ has (p &&& ~~~(evenZ ||| oddZ)) evenZ ∧ ¬ has (p &&& ~~~(evenZ ||| oddZ)) oddZ ∧
    (has (p &&& ~~~(evenZ ||| oddZ)) evenY ↔ has p evenY) ∧ (has (p &&& ~~~(evenZ ||| oddZ)) oddY ↔ has p oddY) := by
  rw [has_evenZ, has_oddZ, has_evenY, has_oddY, has_evenY, has_oddY, clearZ_bit p 0 (by omega), clearZ_bit p 1 (by omega),
    clearZ_bit p 2 (by omega), clearZ_bit p 3 (by omega)]
  simp

theorem clearY_has (p : BitVec 32) : ¬ has (p &&& ~~~(evenY ||| oddY)) evenY ∧ ¬ has (p &&& ~~~(evenY ||| oddY)) oddY ∧
    (has (p &&& ~~~(evenY ||| oddY)) evenZ ↔ has p evenZ) ∧ (has (p &&& ~~~(evenY ||| oddY)) oddZ ↔ has p oddZ) := by
  rw [has_evenZ, has_oddZ, has_evenY, has_oddY, has_evenZ, has_oddZ, clearY_bit p 0 (by omega), clearY_bit p 1 (by omega),
    clearY_bit p 2 (by omega), clearY_bit p 3 (by omega)]
  simp

/-- One axis of the sanitising: clear the two flags if both are set or the wavevector is incompatible. -/
theorem axis_step (cl : BitVec 32 → BitVec 32) (even odd : BitVec 32) (hcl : ∀ p, ¬ has (cl p) even ∧ ¬ has (cl p) odd)
    (c : Prop) [Decidable c] (p : BitVec 32) :
    let q := if has p even ∧ has p odd then cl p else p
    let r := if c then cl q else q
    (has r even ↔ has p even ∧ ¬ has p odd ∧ ¬ c) ∧ (has r odd ↔ has p odd ∧ ¬ has p even ∧ ¬ c) := by
  intro q r
  by_cases hc : c
  · have hr : r = cl q := if_pos hc
    rw [hr]
    have := hcl q
    exact ⟨⟨fun h => absurd h this.1, fun h => absurd hc h.2.2⟩, ⟨fun h => absurd h this.2, fun h => absurd hc h.2.2⟩⟩
  · have hr : r = q := if_neg hc
    rw [hr]
    by_cases hb : has p even ∧ has p odd
    · have hq : q = cl p := if_pos hb
      rw [hq]
      have := hcl p
      exact ⟨⟨fun h => absurd h this.1, fun h => absurd hb.2 h.2.1⟩, ⟨fun h => absurd h this.2, fun h => absurd hb.1 h.2.1⟩⟩
    · have hq : q = p := if_neg hb
      rw [hq]
      exact ⟨⟨fun h => ⟨h, fun h' => hb ⟨h, h'⟩, hc⟩, fun h => h.1⟩, ⟨fun h => ⟨h, fun h' => hb ⟨h', h⟩, hc⟩, fun h => h.1⟩⟩

theorem axis_keep (cl : BitVec 32 → BitVec 32) (φ : BitVec 32 → Prop) (hcl : ∀ p, φ (cl p) ↔ φ p) (c d : Prop) [Decidable c] [Decidable d]
    (p : BitVec 32) : (φ (if d then cl (if c then cl p else p) else (if c then cl p else p)) ↔ φ p) := by
  split <;> split <;> simp [hcl]

/-- C16 (flags).  For every requested bit pattern and every wavevector, `set_maxwell_data_parity` keeps the even (odd) flag of
an axis exactly when it is requested, the opposite flag is not requested, and the wavevector has no component along that axis;
all other bits of the request are kept. -/
theorem C16_flags (k : V3 ℝ) (p : BitVec 32) :
    (has (setDataParity k p) evenZ ↔ has p evenZ ∧ ¬ has p oddZ ∧ k.z = 0) ∧
    (has (setDataParity k p) oddZ ↔ has p oddZ ∧ ¬ has p evenZ ∧ k.z = 0) ∧
    (has (setDataParity k p) evenY ↔ has p evenY ∧ ¬ has p oddY ∧ k.y = 0) ∧
    (has (setDataParity k p) oddY ↔ has p oddY ∧ ¬ has p evenY ∧ k.y = 0) ∧
    (∀ i, 4 ≤ i → i < 32 → (setDataParity k p).getLsbD i = p.getLsbD i) := by
  classical
  set q := (if k.z ≠ 0 then (if has p evenZ ∧ has p oddZ then p &&& ~~~(evenZ ||| oddZ) else p) &&& ~~~(evenZ ||| oddZ)
    else (if has p evenZ ∧ has p oddZ then p &&& ~~~(evenZ ||| oddZ) else p)) with hq
  have e : setDataParity k p = (if k.y ≠ 0 then (if has q evenY ∧ has q oddY then q &&& ~~~(evenY ||| oddY) else q) &&& ~~~(evenY ||| oddY)
    else (if has q evenY ∧ has q oddY then q &&& ~~~(evenY ||| oddY) else q)) := by
    rw [hq]; unfold setDataParity; congr
  have z := axis_step (fun p => p &&& ~~~(evenZ ||| oddZ)) evenZ oddZ (fun p => ⟨(clearZ_has p).1, (clearZ_has p).2.1⟩) (k.z ≠ 0) p
  simp only [← hq] at z
  have zy1 := axis_keep (fun p => p &&& ~~~(evenZ ||| oddZ)) (fun p => has p evenY) (fun p => (clearZ_has p).2.2.1)
    (has p evenZ ∧ has p oddZ) (k.z ≠ 0) p
  have zy2 := axis_keep (fun p => p &&& ~~~(evenZ ||| oddZ)) (fun p => has p oddY) (fun p => (clearZ_has p).2.2.2)
    (has p evenZ ∧ has p oddZ) (k.z ≠ 0) p
  simp only [← hq] at zy1 zy2
  have y := axis_step (fun p => p &&& ~~~(evenY ||| oddY)) evenY oddY (fun p => ⟨(clearY_has p).1, (clearY_has p).2.1⟩) (k.y ≠ 0) q
  have yz1 := axis_keep (fun p => p &&& ~~~(evenY ||| oddY)) (fun p => has p evenZ) (fun p => (clearY_has p).2.2.1)
    (has q evenY ∧ has q oddY) (k.y ≠ 0) q
  have yz2 := axis_keep (fun p => p &&& ~~~(evenY ||| oddY)) (fun p => has p oddZ) (fun p => (clearY_has p).2.2.2)
    (has q evenY ∧ has q oddY) (k.y ≠ 0) q
  simp only [← e] at y yz1 yz2
  rw [yz1, yz2, y.1, y.2, z.1, z.2, zy1, zy2]
  simp only [ne_eq, not_not, true_and]
  intro i h4 hi
  rw [Bool.eq_iff_iff]
  have k1 := axis_keep (fun p => p &&& ~~~(evenZ ||| oddZ)) (fun p => p.getLsbD i = true)
    (fun p => by rw [clearZ_bit p i hi]; simp; omega) (has p evenZ ∧ has p oddZ) (k.z ≠ 0) p
  have k2 := axis_keep (fun p => p &&& ~~~(evenY ||| oddY)) (fun p => p.getLsbD i = true)
    (fun p => by rw [clearY_bit p i hi]; simp; omega) (has q evenY ∧ has q oddY) (k.y ≠ 0) q
  simp only [← hq] at k1
  simp only [← e] at k2
  exact k2.trans k1

theorem eq_of_has {p q : BitVec 32} (h0 : has p evenZ ↔ has q evenZ) (h1 : has p oddZ ↔ has q oddZ) (h2 : has p evenY ↔ has q evenY)
    (h3 : has p oddY ↔ has q oddY) (h4 : ∀ i, 4 ≤ i → i < 32 → p.getLsbD i = q.getLsbD i) : p = q := by
  rw [has_evenZ, has_evenZ] at h0
  rw [has_oddZ, has_oddZ] at h1
  rw [has_evenY, has_evenY] at h2
  rw [has_oddY, has_oddY] at h3
  apply BitVec.eq_of_getLsbD_eq
  intro i hi
  rcases Nat.lt_or_ge i 4 with h | h
  · have : i = 0 ∨ i = 1 ∨ i = 2 ∨ i = 3 := by omega
    rcases this with rfl | rfl | rfl | rfl
    · exact Bool.eq_iff_iff.2 h0
    · exact Bool.eq_iff_iff.2 h1
    · exact Bool.eq_iff_iff.2 h2
    · exact Bool.eq_iff_iff.2 h3
  · exact h4 i h hi

theorem prop_aux (A B C : Prop) : ((A ∧ ¬ B ∧ C) ∧ ¬ (B ∧ ¬ A ∧ C) ∧ C) ↔ (A ∧ ¬ B ∧ C) := by tauto

/-- C16 (consistency).  The stored parity never has both flags of an axis, and sanitising again changes nothing. -/
theorem C16_consistent (k : V3 ℝ) (p : BitVec 32) :
    ¬ (has (setDataParity k p) evenZ ∧ has (setDataParity k p) oddZ) ∧
    ¬ (has (setDataParity k p) evenY ∧ has (setDataParity k p) oddY) ∧
    setDataParity k (setDataParity k p) = setDataParity k p := by
  obtain ⟨h1, h2, h3, h4, h5⟩ := C16_flags k p
  refine ⟨by rw [h1, h2]; rintro ⟨⟨_, a, _⟩, b, _⟩; exact a b, by rw [h3, h4]; rintro ⟨⟨_, a, _⟩, b, _⟩; exact a b, ?_⟩
  obtain ⟨g1, g2, g3, g4, g5⟩ := C16_flags k (setDataParity k p)
  refine eq_of_has (g1.trans ?_) (g2.trans ?_) (g3.trans ?_) (g4.trans ?_) g5 
  · rw [h1, h2]; exact prop_aux _ _ _
  · rw [h1, h2]; exact prop_aux _ _ _
  · rw [h3, h4]; exact prop_aux _ _ _
  · rw [h3, h4]; exact prop_aux _ _ _

/-- A request is consistent with a wavevector. -/
def Compatible (k : V3 ℝ) (p : BitVec 32) : Prop :=
  ¬ (has p evenZ ∧ has p oddZ) ∧ ¬ (has p evenY ∧ has p oddY) ∧ (has p evenZ ∨ has p oddZ → k.z = 0) ∧ (has p evenY ∨ has p oddY → k.y = 0)

/-- The request is stored unchanged exactly when it is consistent. -/
theorem setDataParity_eq_iff (k : V3 ℝ) (p : BitVec 32) : setDataParity k p = p ↔ Compatible k p := by
  obtain ⟨h1, h2, h3, h4, h5⟩ := C16_flags k p
  constructor
  · intro e
    rw [e] at h1 h2 h3 h4
    unfold Compatible
    clear h5 e
    generalize has p evenZ = A at *
    generalize has p oddZ = B at *
    generalize has p evenY = C at *
    generalize has p oddY = D at *
    tauto
  · rintro ⟨c1, c2, c3, c4⟩
    refine eq_of_has (h1.trans ?_) (h2.trans ?_) (h3.trans ?_) (h4.trans ?_) h5
    all_goals
      clear h1 h2 h3 h4 h5
      generalize has p evenZ = A at *
      generalize has p oddZ = B at *
      generalize has p evenY = C at *
      generalize has p oddY = D at *
      tauto

/-- C16 (when the program accepts a request).  `set-parity p` with `p ≠ -1` succeeds exactly for consistent requests, and then
solves for exactly the requested parity. -/
theorem C16_set_parity (s : PState) (par : BitVec 32) (k : V3 ℝ) (hm : s.mdata = some (par, k)) (p : BitVec 32) (hp : p ≠ -1) :
    (Compatible k p → setParity s p = some ⟨p, some (p, k)⟩) ∧ (¬ Compatible k p → setParity s p = none) := by
  unfold setParity
  rw [hm]
  simp only [hp, if_false]
  rw [← setDataParity_eq_iff]
  constructor
  · intro h; rw [h]; simp
  · intro h; rw [if_neg h]

/-- Reachable live states: the stored parity is consistent with the current wavevector and is the last one selected. -/
def Good (s : PState) : Prop := ∀ par k, s.mdata = some (par, k) → Compatible k par ∧ par = s.lastP

theorem setParity_some {s s' : PState} {p par : BitVec 32} {k : V3 ℝ} (hm : s.mdata = some (par, k)) (h : setParity s p = some s') :
    ∃ q, setDataParity k q = q ∧ s' = ⟨q, some (q, k)⟩ := by
  unfold setParity at h
  rw [hm] at h
  simp only at h
  generalize (if p = -1 then if s.lastP.toInt < 0 then 0#32 else s.lastP else p) = q at h
  by_cases he : setDataParity k q = q
  · rw [if_pos he, he] at h
    exact ⟨q, he, (Option.some.inj h).symm⟩
  · rw [if_neg he] at h; cases h

theorem setParity_of_mdata {s s' : PState} {p par : BitVec 32} {k : V3 ℝ} (hm : s.mdata = some (par, k)) (h : setParity s p = some s') :
    Good s' := by
  obtain ⟨q, he, rfl⟩ := setParity_some hm h
  intro par' k' e
  simp only [Option.some.injEq, Prod.mk.injEq] at e
  obtain ⟨rfl, rfl⟩ := e
  exact ⟨(setDataParity_eq_iff _ _).1 he, rfl⟩

theorem good_setParity {s s' : PState} (p : BitVec 32) (hg : Good s) (h : setParity s p = some s') : Good s' := by
  cases hm : s.mdata with
  | none => unfold setParity at h; rw [hm] at h; cases h; exact hg
  | some pk => exact setParity_of_mdata hm h

theorem good_step {s s' : PState} (c : Cmd) (hg : Good s) (h : step s c = some s') : Good s' := by
  cases c with
  | setParity p => exact good_setParity p hg h
  | initParams p => exact setParity_of_mdata (s := { s with mdata := some (0#32, 0) }) rfl h
  | solveK n k =>
    unfold step solveK at h
    simp only at h
    split at h
    · cases hm : s.mdata with
      | none => rw [hm] at h; cases h; exact hg
      | some pk =>
        obtain ⟨par, k0⟩ := pk
        rw [hm] at h
        simp only at h
        split at h
        · rename_i he
          cases h
          intro par' k' e
          simp only [Option.some.injEq, Prod.mk.injEq] at e
          obtain ⟨rfl, rfl⟩ := e
          rw [he]
          exact ⟨(setDataParity_eq_iff _ _).1 he, (hg par k0 hm).2⟩
        · cases h
    · cases h; exact hg

theorem good_run : ∀ (cs : List Cmd) (s s' : PState), Good s → run s cs = some s' → Good s' := by
  intro cs
  induction cs with
  | nil => intro s s' hg h; cases h; exact hg
  | cons c cs ih =>
    intro s s' hg h
    unfold run at h
    cases hs : step s c with
    | none => rw [hs] at h; cases h
    | some s1 => rw [hs] at h; exact ih s1 s' (good_step c hg hs) h

/-- C16 (histories).  After every script that has not aborted, the parity being solved for has at most one flag per axis, is
compatible with the current wavevector, and is the last parity selected. -/
theorem C16_history (cs : List Cmd) (s : PState) (h : run {} cs = some s) (par : BitVec 32) (k : V3 ℝ) (hm : s.mdata = some (par, k)) :
    Compatible k par ∧ par = s.lastP :=
  good_run cs {} s (by intro par k e; cases e) h par k hm

theorem compatible_zero (p : BitVec 32) (k : V3 ℝ) (h : Compatible k p) : Compatible 0 p := by
  obtain ⟨h1, h2, _, _⟩ := h
  exact ⟨h1, h2, fun _ => rfl, fun _ => rfl⟩

/-- C16 (re-selection).  After every script that has not aborted and has initialised, with a parity selected as a non-negative
number: `set-parity -1` and `init-params -1` never abort and select that last parity again. -/
theorem C16_reselect (cs : List Cmd) (s : PState) (h : run {} cs = some s) (par : BitVec 32) (k : V3 ℝ)
    (hm : s.mdata = some (par, k)) (hpos : 0 ≤ par.toInt) :
    setParity s (-1) = some ⟨par, some (par, k)⟩ ∧ initParams s (-1) = some ⟨par, some (par, 0)⟩ := by
  obtain ⟨hc, hl⟩ := C16_history cs s h par k hm
  have e1 : (if s.lastP.toInt < 0 then 0#32 else s.lastP) = par := by rw [← hl, if_neg (by omega)]
  constructor
  · unfold setParity
    rw [hm]
    simp only [e1, if_true]
    rw [(setDataParity_eq_iff k par).2 hc]; simp
  · unfold initParams setParity
    simp only [e1, if_true]
    rw [(setDataParity_eq_iff 0 par).2 (compatible_zero par k hc)]; simp

/-- C16 (solve).  `solve-kpoint` aborts exactly when the wavevector is incompatible with the selected parity. -/
theorem C16_solve (s : PState) (par : BitVec 32) (k : V3 ℝ) (hm : s.mdata = some (par, k)) (kc : V3 ℝ) :
    (Compatible kc par → solveK s true kc = some { s with mdata := some (par, kc) }) ∧ (¬ Compatible kc par → solveK s true kc = none) := by
  unfold solveK
  simp only [hm, if_true]
  rw [← setDataParity_eq_iff]
  constructor
  · intro h; rw [h]; simp
  · intro h; rw [if_neg h]

/-- Non-vacuity: initialise with TE (even z), solve at `k = (1, 0, 0)`, then `set-parity -1`. -/
example : run {} [.initParams evenZ, .solveK true ⟨1, 0, 0⟩, .setParity (-1)] = some ⟨evenZ, some (evenZ, ⟨1, 0, 0⟩)⟩ := by
  have c0 : Compatible 0 evenZ := ⟨by decide, by decide, fun _ => rfl, fun _ => rfl⟩
  have c1 : Compatible ⟨1, 0, 0⟩ evenZ := ⟨by decide, by decide, fun _ => rfl, fun _ => rfl⟩
  have s1 : step {} (.initParams evenZ) = some ⟨evenZ, some (evenZ, 0)⟩ :=
    (C16_set_parity ⟨-2, some (0, 0)⟩ 0 0 rfl evenZ (by decide)).1 c0
  have s2 : step ⟨evenZ, some (evenZ, 0)⟩ (.solveK true ⟨1, 0, 0⟩) = some ⟨evenZ, some (evenZ, ⟨1, 0, 0⟩)⟩ :=
    (C16_solve ⟨evenZ, some (evenZ, 0)⟩ evenZ 0 rfl ⟨1, 0, 0⟩).1 c1
  have r2 : run {} [.initParams evenZ, .solveK true ⟨1, 0, 0⟩] = some ⟨evenZ, some (evenZ, ⟨1, 0, 0⟩)⟩ := by
    unfold run; rw [s1]; unfold run; rw [Option.bind_some, s2]; rfl
  have s3 := (C16_reselect _ _ r2 evenZ ⟨1, 0, 0⟩ rfl (by decide)).1
  unfold run; rw [s1]; unfold run; rw [Option.bind_some, s2]; unfold run step; rw [Option.bind_some]; simp only [s3]; rfl

/-- Non-vacuity: a contradictory request is sanitised to nothing by `set_maxwell_data_parity`, hence aborts `set-parity`. -/
example : setParity ⟨0, some (0, 0)⟩ (evenZ ||| oddZ) = none :=
  (C16_set_parity ⟨0, some (0, 0)⟩ 0 0 rfl (evenZ ||| oddZ) (by decide)).2 (fun h => h.1 (by decide))

end Mpb.Parity

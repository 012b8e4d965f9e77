import Verif.Eig.Direction

/-!
# C99: the work arrays of the eigensolver

The result does not depend on what the work arrays contain when the eigensolver is called, nor on anything beyond the `nWork` arrays it was
given, and it touches only these.
-/

namespace Mpb.Eig

open Matrix Mpb.Solver

variable {N p : ℕ}

/-- Two memories agree on some slots. -/
def Agree (U : ℕ → Prop) (r r' : ℕ → M N p) : Prop := ∀ k, U k → r k = r' k

/-- The slots whose contents matter at the top of the loop. -/
def live (a : Args N p) (k : ℕ) : Prop := k = 0 ∨ (cg a = true ∧ k = sD a) ∨ (pr a = true ∧ k = sPrev a)

/-- All slots in use. -/
def used (a : Args N p) (k : ℕ) : Prop := live a k ∨ k = sBY a ∨ k = 1 ∨ k = 2

theorem used_D (a : Args N p) : used a (sD a) := by
  by_cases h : cg a = true
  · exact Or.inl (Or.inr (Or.inl ⟨h, rfl⟩))
  · exact Or.inr (Or.inr (Or.inr (by unfold sD; rw [if_neg h])))

theorem used_prev (a : Args N p) : used a (sPrev a) := by
  by_cases h : pr a = true
  · exact Or.inl (Or.inr (Or.inr ⟨h, rfl⟩))
  · exact Or.inr (Or.inr (Or.inl (by unfold sPrev; rw [if_neg h])))

theorem used_BY (a : Args N p) : used a (sBY a) := Or.inr (Or.inl rfl)
theorem used_BD (a : Args N p) : used a (sBD a) := by
  unfold sBD
  split_ifs
  · exact used_BY a
  · exact used_D a
theorem used_0 (a : Args N p) : used a 0 := Or.inl (Or.inl rfl)
theorem used_1 (a : Args N p) : used a 1 := Or.inr (Or.inr (Or.inl rfl))
theorem used_2 (a : Args N p) : used a 2 := Or.inr (Or.inr (Or.inr rfl))

/-! ## Steps that keep the agreement -/

section agree
variable {U V : ℕ → Prop} {r r' : ℕ → M N p}

theorem Agree.mono (h : Agree V r r') (hU : ∀ k, U k → V k) : Agree U r r' := fun k hk => h k (hU k hk)

theorem Agree.put (h : Agree U r r') (k : ℕ) {x x' : M N p} (hx : x = x') : Agree (fun j => U j ∨ j = k) (put r k x) (put r' k x') := by
  subst hx
  intro j hj
  by_cases hjk : j = k
  · subst hjk; rw [put_same, put_same]
  · rw [put_ne _ _ hjk, put_ne _ _ hjk]
    exact h j (hj.resolve_right hjk)

theorem Agree.put' (h : Agree U r r') (k : ℕ) {x x' : M N p} (hx : x = x') : Agree U (Mpb.Eig.put r k x) (Mpb.Eig.put r' k x') :=
  (h.put k hx).mono fun _ hj => Or.inl hj

theorem Agree.spoil (h : Agree U r r') (a : Args N p) (e : Env N p) (it site k : ℕ) : Agree U (Mpb.Eig.spoil a e it site k r) (Mpb.Eig.spoil a e it site k r') := by
  unfold Mpb.Eig.spoil
  split_ifs
  · exact h.put' k rfl
  · exact h

theorem Agree.opA (h : Agree U r r') (a : Args N p) (e : Env N p) (it site : ℕ) {src : ℕ} (dst scr : ℕ) (hs : U src) :
    Agree (fun j => U j ∨ j = dst) (Mpb.Eig.opA a e it site src dst scr r) (Mpb.Eig.opA a e it site src dst scr r') :=
  (h.spoil a e it site scr).put dst (by rw [h src hs])

theorem Agree.opB (h : Agree U r r') (a : Args N p) (e : Env N p) (it site : ℕ) {src : ℕ} (dst scr : ℕ) (hs : U src) (hd : a.B = none → U dst) :
    Agree (fun j => U j ∨ j = dst) (Mpb.Eig.opB a e it site src dst scr r) (Mpb.Eig.opB a e it site src dst scr r') := by
  unfold Mpb.Eig.opB
  cases hB : a.B with
  | none =>
    intro j hj
    rcases hj with hj | rfl
    · exact h j hj
    · exact h _ (hd hB)
  | some B => exact (h.spoil a e it site scr).put dst (by rw [h src hs])

theorem Agree.constrain (h : Agree U r r') (a : Args N p) {k : ℕ} (hk : U k) : Agree U (Mpb.Eig.constrain a k r) (Mpb.Eig.constrain a k r') := by
  unfold Mpb.Eig.constrain
  cases a.C with
  | none => exact h
  | some C => exact h.put' k (by rw [h k hk])

end agree

/-! ## The parts of an iteration -/

section parts
variable {a : Args N p} {e : Env N p} {U : ℕ → Prop} {r r' : ℕ → M N p}

theorem measure_agree (h : Agree U r r') (h0 : U 0) (it site : ℕ) :
    Agree (fun j => U j ∨ j = sBY a) (measure a e it site r).1 (measure a e it site r').1 ∧ (measure a e it site r).2 = (measure a e it site r').2 := by
  have hb := h.opB a e it site (sBY a) 1 h0 (fun hB => by rw [sBY_none hB]; exact h0)
  unfold measure
  simp only
  generalize opB a e it site 0 (sBY a) 1 r = q at hb
  generalize opB a e it site 0 (sBY a) 1 r' = q' at hb
  have e0 := hb 0 (Or.inl h0)
  have eB := hb (sBY a) (Or.inr rfl)
  rw [e0, eB]
  refine ⟨?_, rfl⟩
  have h1 := hb.put' 0 (x := ((1 / Real.sqrt (((q' 0)ᴴ * q' (sBY a)).trace.re / (p : ℝ)) : ℝ) : ℂ) • q' 0) rfl
  split_ifs
  · exact h1.put' (sBY a) (by rw [h1 (sBY a) (Or.inr rfl)])
  · exact h1

/-- Two preparations that agree. -/
inductive PrepAgree (a : Args N p) : Prep N p → Prep N p → Prop
  | fail : PrepAgree a .fail .fail
  | restart {r r' : ℕ → M N p} : Agree (live a) r r' → PrepAgree a (.restart r) (.restart r')
  | ok {r r' : ℕ → M N p} (YtBY : Sq p) (U : Sq p) (tr : ℝ) : Agree (fun k => live a k ∨ k = sBY a) r r' → PrepAgree a (.ok r YtBY U tr) (.ok r' YtBY U tr)

/-- Two states that differ only in slots that do not matter. -/
structure Same (a : Args N p) (s s' : St N p) : Prop where
  r : Agree (live a) s.r s'.r
  rest : s' = { s with r := s'.r }

theorem prepare_agree {s s' : St N p} (h : Same a s s') : PrepAgree a (prepare a e s) (prepare a e s') := by
  have hl0 : live a 0 := Or.inl rfl
  obtain ⟨m1, m2⟩ := measure_agree (a := a) (e := e) h.r hl0 s.iter 0
  have hit : s'.iter = s.iter := by rw [h.rest]
  have htr : s'.prevTrGX = s.prevTrGX := by rw [h.rest]
  unfold prepare
  simp only
  rw [hit, htr]
  generalize measure a e s.iter 0 s.r = m at m1 m2
  generalize measure a e s.iter 0 s'.r = m' at m1 m2
  rw [← m2]
  cases e.inv m.2 with
  | none => exact .restart (m1.mono fun _ h => Or.inl h)
  | some U =>
    simp only
    split_ifs
    · have h1 := m1.put 1 (x := m.1 0 * (e.sqrtm U)ᴴ) (x' := m'.1 0 * (e.sqrtm U)ᴴ) (by rw [m1 0 (Or.inl hl0)])
      have h2 := h1.put' 0 (h1 1 (Or.inr rfl))
      obtain ⟨n1, n2⟩ := measure_agree (a := a) (e := e) h2 (Or.inl (Or.inl hl0)) s.iter 1
      generalize measure a e s.iter 1 (put (put m.1 1 (m.1 0 * (e.sqrtm U)ᴴ)) 0 (put m.1 1 (m.1 0 * (e.sqrtm U)ᴴ) 1)) = q at n1 n2
      generalize measure a e s.iter 1 (put (put m'.1 1 (m'.1 0 * (e.sqrtm U)ᴴ)) 0 (put m'.1 1 (m'.1 0 * (e.sqrtm U)ᴴ) 1)) = q' at n1 n2
      rw [← n2]
      cases e.inv q.2 with
      | none => exact .fail
      | some U' => exact .ok _ _ _ (n1.mono fun k hk => hk.elim (fun h => Or.inl (Or.inl (Or.inl h))) Or.inr)
    · exact .ok _ _ _ m1

theorem evalTrace_agree (h : Agree (fun k => live a k ∨ k = sBY a) r r') (it : ℕ) (U : Sq p) :
    Agree (used a) (evalTrace a e it U r).1 (evalTrace a e it U r').1 ∧ (evalTrace a e it U r).2 = (evalTrace a e it U r').2 := by
  have h1 := h.opA a e it 2 (src := 0) 2 1 (Or.inl (Or.inl rfl))
  unfold evalTrace
  simp only
  generalize opA a e it 2 0 2 1 r = q at h1
  generalize opA a e it 2 0 2 1 r' = q' at h1
  have h2 := h1.put 1 (x := q 2 * Uᴴ) (x' := q' 2 * Uᴴ) (by rw [h1 2 (Or.inr rfl)])
  refine ⟨h2.mono ?_, ?_⟩
  · rintro k (h | h | h | h)
    · exact Or.inl (Or.inl (Or.inl h))
    · exact Or.inl (Or.inl (Or.inr h))
    · exact Or.inr h
    · exact Or.inl (Or.inr h)
  · rw [h2 0 (Or.inl (Or.inl (Or.inl (Or.inl rfl)))), h2 1 (Or.inr rfl)]

theorem precond_agree (h : Agree (used a) r r') (YtBY U : Sq p) : Agree (used a) (precond a YtBY U r) (precond a YtBY U r') := by
  have h1 := h.put' 2 (x := applyK a (r 1) (r 0) YtBY) (x' := applyK a (r' 1) (r' 0) YtBY) (by rw [h 1 (used_1 a), h 0 (used_0 a)])
  have h2 := h1.constrain a (used_2 a)
  unfold precond
  simp only
  generalize constrain a 2 (put r 2 (applyK a (r 1) (r 0) YtBY)) = q at h2
  generalize constrain a 2 (put r' 2 (applyK a (r' 1) (r' 0) YtBY)) = q' at h2
  split_ifs
  · exact h2.put' 2 (by rw [h2 2 (used_2 a), h2 0 (used_0 a), h2 _ (used_BY a)])
  · exact h2

theorem gammaNum_agree (h : Agree (used a) r r') : Agree (used a) (gammaNum a r).1 (gammaNum a r').1 ∧ (gammaNum a r).2 = (gammaNum a r').2 := by
  unfold gammaNum
  split_ifs
  · have h1 := h.put' 1 (x := r 1 - r (sPrev a)) (x' := r' 1 - r' (sPrev a)) (by rw [h 1 (used_1 a), h _ (used_prev a)])
    have h2 := h1.put' (sPrev a) (h 1 (used_1 a))
    exact ⟨h2, by simp only; rw [h2 1 (used_1 a), h2 2 (used_2 a)]⟩
  · exact ⟨h, by simp only; rw [h 1 (used_1 a), h 2 (used_2 a)]⟩
  · exact ⟨h, rfl⟩

theorem orthoPre_agree (h : Agree (used a) r r') (YtBY : Sq p) :
    (orthoPre a e YtBY r = none ∧ orthoPre a e YtBY r' = none) ∨
      ∃ o o', orthoPre a e YtBY r = some o ∧ orthoPre a e YtBY r' = some o' ∧ Agree (used a) o.1 o'.1 ∧ o.2 = o'.2 := by
  unfold orthoPre
  split_ifs
  · have h1 := h.put' 1 (x := applyK a (r 0) (r 0) YtBY) (x' := applyK a (r' 0) (r' 0) YtBY) (by rw [h 0 (used_0 a)])
    simp only
    generalize put r 1 (applyK a (r 0) (r 0) YtBY) = q at h1
    generalize put r' 1 (applyK a (r' 0) (r' 0) YtBY) = q' at h1
    rw [h1 0 (used_0 a), h1 1 (used_1 a), h1 2 (used_2 a)]
    cases e.invGen ((q' 0)ᴴ * q' 1) with
    | none => exact Or.inl ⟨rfl, rfl⟩
    | some S => exact Or.inr ⟨_, _, rfl, rfl, h1.put' 2 rfl, rfl⟩
  · exact Or.inr ⟨_, _, rfl, rfl, h, rfl⟩

theorem direction_agree {s s' : St N p} (hs : Same a s s') (h : Agree (used a) r r') (hist : ℕ → ℝ) (tr : ℝ) (YtBY U YtAYU : Sq p) :
    (direction a e s hist tr YtBY U YtAYU r = none ∧ direction a e s' hist tr YtBY U YtAYU r' = none) ∨
      ∃ d d', direction a e s hist tr YtBY U YtAYU r = some d ∧ direction a e s' hist tr YtBY U YtAYU r' = some d' ∧ Agree (used a) d.r d'.r ∧
        d.trGX = d'.trGX ∧ d.hist = d'.hist := by
  have h1 : Agree (used a) (gradient a U YtAYU r) (gradient a U YtAYU r') := by
    unfold gradient
    exact h.put' 1 (by rw [h 1 (used_1 a), h _ (used_BY a)])
  have h2 := precond_agree h1 YtBY U
  obtain ⟨h3, h4⟩ := gammaNum_agree h2
  have hga : ∀ c d, gammaOf a s' hist c d = gammaOf a s hist c d := by
    intro c d
    have : s'.iter = s.iter := by rw [hs.rest]
    unfold gammaOf
    rw [this]
  have hds : s'.dScale = s.dScale := by rw [hs.rest]
  unfold direction
  simp only
  generalize precond a YtBY U (gradient a U YtAYU r) = q at h2 h3 h4
  generalize precond a YtBY U (gradient a U YtAYU r') = q' at h2 h3 h4
  rw [h2 1 (used_1 a), h2 2 (used_2 a), ← h4]
  rcases orthoPre_agree (e := e) h3 YtBY with ⟨o1, o2⟩ | ⟨o, o', o1, o2, o3, o4⟩
  · rw [o1, o2]; exact Or.inl ⟨rfl, rfl⟩
  · rw [o1, o2]
    refine Or.inr ?_
    simp only [Option.map_some]
    by_cases hc : cg a = true
    · rw [if_pos hc, if_pos hc]
      refine ⟨_, _, rfl, rfl, o3.put' (sD a) ?_, ?_, ?_⟩
      · rw [hga, hds, o4, o3 _ (used_D a), o3 2 (used_2 a)]
      · simp only; rw [o4]
      · simp only; rw [hga, o4]
    · rw [if_neg hc, if_neg hc]
      exact ⟨_, _, rfl, rfl, o3, by simp only; rw [o4], rfl⟩

/-- Two results of a line minimisation that agree. -/
structure SameLin (a : Args N p) (l l' : Lin N p) : Prop where
  r : Agree (used a) l.r l'.r
  rest : l' = { l with r := l'.r }

/-- Both absent, or both present and the same. -/
def SameLin' (a : Args N p) (x x' : Option (Lin N p)) : Prop := (x = none ∧ x' = none) ∨ ∃ l l', x = some l ∧ x' = some l' ∧ SameLin a l l'

theorem approxFrom_agree {l l' : Lin N p} (hl : SameLin a l l') (h : Agree (used a) r r') (it : ℕ) (E prevE : ℝ) :
    SameLin' a (approxFrom a e it E prevE l r) (approxFrom a e it E prevE l' r') := by
  obtain ⟨hl1, hl2⟩ := hl
  have hpt : l'.prevTheta = l.prevTheta := by rw [hl2]
  have hD := h _ (used_D a)
  unfold approxFrom
  simp only
  rw [hpt, hD, h _ (used_BD a), h _ (used_prev a), h 0 (used_0 a)]
  generalize Real.sqrt (trXtY (r' (sBD a)) (r' (sD a)) / (p : ℝ)) = dN
  generalize 2 * trXtY (r' (sPrev a)) (r' (sD a)) / dN = dE
  generalize (if dE < 0 then -|l.prevTheta| else |l.prevTheta|) = t
  by_cases hz : dN = 0
  · rw [if_pos hz, if_pos hz]; exact Or.inl ⟨rfl, rfl⟩
  rw [if_neg hz, if_neg hz]
  have h1 := h.put' 0 (x := r' 0 + ((t / dN : ℝ) : ℂ) • r' (sD a)) rfl
  have h2 : Agree (used a) _ _ := (h1.opB a e it 3 (src := 0) (sBY a) 1 (used_0 a) (fun _ => used_BY a)).mono fun _ h => Or.inl h
  generalize opB a e it 3 0 (sBY a) 1 (put r 0 (r' 0 + ((t / dN : ℝ) : ℂ) • r' (sD a))) = q at h2
  generalize opB a e it 3 0 (sBY a) 1 (put r' 0 (r' 0 + ((t / dN : ℝ) : ℂ) • r' (sD a))) = q' at h2
  rw [h2 0 (used_0 a), h2 _ (used_BY a)]
  cases e.inv ((q' 0)ᴴ * q' (sBY a)) with
  | none => exact Or.inl ⟨rfl, rfl⟩
  | some U =>
    simp only
    have h3 : Agree (used a) _ _ := (h2.opA a e it 4 (src := 0) 1 2 (used_0 a)).mono fun _ h => Or.inl h
    generalize opA a e it 4 0 1 2 q = w at h3
    generalize opA a e it 4 0 1 2 q' = w' at h3
    rw [h3 0 (used_0 a), h3 1 (used_1 a), h3 _ (used_D a)]
    generalize (((w' 0)ᴴ * w' 1)ᴴ * U).trace.re = E2
    by_cases c1 : t = 0
    · rw [if_pos c1, if_pos c1]; exact Or.inl ⟨rfl, rfl⟩
    rw [if_neg c1, if_neg c1]
    generalize (E2 - E - dE * t) / (0.5 * t * t) = d2
    by_cases c2 : d2 = 0 ∧ (dE = 0 ∨ a.fl.forceApprox = true)
    · rw [if_pos c2, if_pos c2]; exact Or.inl ⟨rfl, rfl⟩
    rw [if_neg c2, if_neg c2]
    refine Or.inr ?_
    split_ifs
    · exact ⟨_, _, rfl, rfl, h3, by rw [hl2]⟩
    · exact ⟨_, _, rfl, rfl, h3.put' 0 rfl, by rw [hl2]⟩
    · exact ⟨_, _, rfl, rfl, h3.put' 0 rfl, by rw [hl2]⟩

theorem approxMin_agree {l l' : Lin N p} (hl : SameLin a l l') (it : ℕ) (E prevE : ℝ) :
    SameLin' a (approxMin a e it E prevE l) (approxMin a e it E prevE l') := by
  have hD := hl.r _ (used_D a)
  have key : ∀ l : Lin N p, approxMin a e it E prevE l =
      approxFrom a e it E prevE l (a.B.elim l.r fun B => put l.r (sBD a) (B * l.r (sD a))) := by
    intro l
    unfold approxMin
    cases hB : a.B with
    | none => rfl
    | some B => rfl
  rw [key, key]
  refine approxFrom_agree hl ?_ it E prevE
  cases a.B with
  | none => exact hl.r
  | some B => exact hl.r.put' (sBD a) (by rw [hD])

theorem exactMin_agree {l l' : Lin N p} (hl : SameLin a l l') (it : ℕ) (E : ℝ) (YtAYU YtBY : Sq p) :
    SameLin' a (exactMin a e it E YtAYU YtBY l) (exactMin a e it E YtAYU YtBY l') := by
  obtain ⟨hl1, hl2⟩ := hl
  have hpt : l'.prevTheta = l.prevTheta := by rw [hl2]
  have hU : l'.U = l.U := by rw [hl2]
  have h1 : Agree (used a) _ _ := (hl1.opB a e it 5 (src := sD a) (sBD a) 1 (used_D a) (fun _ => used_BD a)).mono fun _ h => Or.inl h
  unfold exactMin
  simp only
  rw [hpt, hU]
  generalize opB a e it 5 (sD a) (sBD a) 1 l.r = q at h1
  generalize opB a e it 5 (sD a) (sBD a) 1 l'.r = q' at h1
  rw [h1 _ (used_BD a), h1 _ (used_D a)]
  generalize Real.sqrt (trXtY (q' (sBD a)) (q' (sD a)) / (p : ℝ)) = dS
  by_cases hz : dS = 0
  · rw [if_pos hz, if_pos hz]; exact Or.inl ⟨rfl, rfl⟩
  rw [if_neg hz, if_neg hz]
  have h2 := h1.put' (sD a) (x := ((1 / dS : ℝ) : ℂ) • q' (sD a)) rfl
  generalize put q (sD a) (((1 / dS : ℝ) : ℂ) • q' (sD a)) = v at h2
  generalize put q' (sD a) (((1 / dS : ℝ) : ℂ) • q' (sD a)) = v' at h2
  have h3 : Agree (used a) (if a.B.isSome = true then put v (sBD a) (((1 / dS : ℝ) : ℂ) • v (sBD a)) else v)
      (if a.B.isSome = true then put v' (sBD a) (((1 / dS : ℝ) : ℂ) • v' (sBD a)) else v') := by
    split_ifs
    · exact h2.put' _ (by rw [h2 _ (used_BD a)])
    · exact h2
  generalize (if a.B.isSome = true then put v (sBD a) (((1 / dS : ℝ) : ℂ) • v (sBD a)) else v) = w at h3
  generalize (if a.B.isSome = true then put v' (sBD a) (((1 / dS : ℝ) : ℂ) • v' (sBD a)) else v') = w' at h3
  have h4 : Agree (used a) _ _ := (h3.opA a e it 6 (src := sD a) 1 2 (used_D a)).mono fun _ h => Or.inl h
  generalize opA a e it 6 (sD a) 1 2 w = x at h4
  generalize opA a e it 6 (sD a) 1 2 w' = x' at h4
  rw [h4 0 (used_0 a), h4 1 (used_1 a), h4 _ (used_D a), h4 _ (used_BD a)]
  split
  · exact Or.inr ⟨_, _, rfl, rfl, h4.put' 0 rfl, by rw [hl2]⟩
  · exact Or.inl ⟨rfl, rfl⟩

theorem lineMin_agree {l l' : Lin N p} (hl : SameLin a l l') (it : ℕ) (E prevE : ℝ) (YtAYU YtBY : Sq p) :
    SameLin' a (lineMin a e it E prevE YtAYU YtBY l) (lineMin a e it E prevE YtAYU YtBY l') := by
  have hu : ∀ {l l' : Lin N p}, SameLin a l l' → l'.useLinmin = l.useLinmin := fun h => by rw [h.rest]
  unfold lineMin
  rw [hu hl]
  have h1 : SameLin' a (if l.useLinmin then some l else approxMin a e it E prevE l) (if l.useLinmin then some l' else approxMin a e it E prevE l') := by
    split_ifs
    · exact Or.inr ⟨_, _, rfl, rfl, hl⟩
    · exact approxMin_agree hl it E prevE
  rcases h1 with ⟨x1, x2⟩ | ⟨m, m', x1, x2, x3⟩
  · rw [x1, x2]; exact Or.inl ⟨rfl, rfl⟩
  · rw [x1, x2, Option.bind_some, Option.bind_some, hu x3]
    split_ifs
    · exact exactMin_agree x3 it E _ _
    · exact Or.inr ⟨_, _, rfl, rfl, x3⟩

/-- Two outcomes of a pass that agree. -/
inductive OutAgree (a : Args N p) : Out N p → Out N p → Prop
  | fail : OutAgree a .fail .fail
  | restart {s s'} : Same a s s' → OutAgree a (.restart s) (.restart s')
  | converged {s s'} (E) : Same a s s' → OutAgree a (.converged s E) (.converged s' E)
  | next {s s'} (E) : Same a s s' → OutAgree a (.next s E) (.next s' E)

theorem step_agree {s s' : St N p} (h : Same a s s') : OutAgree a (step a e s) (step a e s') := by
  have hp := prepare_agree (e := e) h
  obtain ⟨r', useLinmin, forceExact, prevE, dScale, prevTrGX, prevTheta, improvement, hist, iter, restarts⟩ := s'
  obtain ⟨r, _, _, _, _, _, _, _, _, _, _⟩ := s
  obtain ⟨h1, h2⟩ := h
  simp only [St.mk.injEq, true_and] at h2
  obtain ⟨rfl, rfl, rfl, rfl, rfl, rfl, rfl, rfl, rfl, rfl⟩ := h2
  dsimp only at h1
  unfold step
  simp only
  generalize prepare a e ⟨r, useLinmin, forceExact, prevE, dScale, prevTrGX, prevTheta, improvement, hist, iter, restarts⟩ = x at hp
  generalize prepare a e ⟨r', useLinmin, forceExact, prevE, dScale, prevTrGX, prevTheta, improvement, hist, iter, restarts⟩ = x' at hp
  cases hp with
  | fail => exact .fail
  | restart hr =>
    simp only
    split_ifs
    · exact .restart ⟨hr.put' 0 rfl, rfl⟩
    · exact .restart ⟨hr.put' 0 rfl, rfl⟩
    · exact .fail
  | ok YtBY U tr hr =>
    simp only
    obtain ⟨t1, t2⟩ := evalTrace_agree (e := e) hr iter U
    generalize evalTrace a e iter U _ = t at t1 t2
    generalize evalTrace a e iter U _ = t' at t1 t2
    rw [← t2]
    split_ifs
    all_goals first
      | exact .converged _ ⟨t1.mono fun _ h => Or.inl h, rfl⟩
      | skip
    all_goals
      rcases direction_agree (e := e) (s := ⟨r, useLinmin, forceExact, prevE, dScale, prevTrGX, prevTheta, improvement, hist, iter, restarts⟩)
        (s' := ⟨r', useLinmin, forceExact, prevE, dScale, prevTrGX, prevTheta, improvement, hist, iter, restarts⟩) ⟨h1, rfl⟩ t1
        (fun i => if i = iter % histSize then 200 * |t.2.trace.re - prevE| / (|t.2.trace.re| + |prevE|) else hist i) tr YtBY U t.2 with
        ⟨o1, o2⟩ | ⟨d, d', o1, o2, o3, o4, o5⟩
      · rw [o1, o2]; exact .fail
      · rw [o1, o2]
        simp only
        rw [← o4, ← o5]
        rcases lineMin_agree (e := e) (l := ⟨d.r, U, 0, prevTheta, _, forceExact, 1, improvement⟩) (l' := ⟨d'.r, U, 0, prevTheta, _, forceExact, 1, improvement⟩)
          ⟨o3, rfl⟩ iter t.2.trace.re prevE t.2 YtBY with ⟨q1, q2⟩ | ⟨l, l', q1, q2, q3⟩
        · rw [q1, q2]; exact .fail
        · rw [q1, q2]
          have hl := q3.rest
          refine .next _ ⟨(q3.r.mono fun _ h => Or.inl h).constrain a (Or.inl rfl), ?_⟩
          unfold finishIter
          simp only
          rw [hl]

theorem begin_agree {s s' : St N p} (h : Same a s s') : (begin a e s = none ∧ begin a e s' = none) ∨
    ∃ q q', begin a e s = some q ∧ begin a e s' = some q' ∧ Same a q q' := by
  obtain ⟨r', useLinmin, forceExact, prevE, dScale, prevTrGX, prevTheta, improvement, hist, iter, restarts⟩ := s'
  obtain ⟨r, _, _, _, _, _, _, _, _, _, _⟩ := s
  obtain ⟨h1, h2⟩ := h
  simp only [St.mk.injEq, true_and] at h2
  obtain ⟨rfl, rfl, rfl, rfl, rfl, rfl, rfl, rfl, rfl, rfl⟩ := h2
  dsimp only at h1
  have hl0 : live a 0 := Or.inl rfl
  unfold begin
  split_ifs
  · have hb := h1.opB a e iter 7 (src := 0) (sBY a) 1 hl0 (fun hB => by rw [sBY_none hB]; exact hl0)
    simp only
    generalize opB a e iter 7 0 (sBY a) 1 r = q at hb
    generalize opB a e iter 7 0 (sBY a) 1 r' = q' at hb
    rw [hb 0 (Or.inl hl0), hb _ (Or.inr rfl)]
    cases e.inv ((q' 0)ᴴ * q' (sBY a)) with
    | none => exact Or.inl ⟨rfl, rfl⟩
    | some U =>
      refine Or.inr ⟨_, _, rfl, rfl, Agree.constrain ?_ a hl0, rfl⟩
      have h3 := hb.put 1 (x := q' 0 * (e.sqrtm U)ᴴ) rfl
      exact (h3.put' 0 (h3 1 (Or.inr rfl))).mono fun _ h => Or.inl (Or.inl h)
  · exact Or.inr ⟨_, _, rfl, rfl, h1.constrain a hl0, rfl⟩

/-- Two results of the loop that agree. -/
inductive ResAgree (a : Args N p) : Result N p → Result N p → Prop
  | outOfFuel : ResAgree a .outOfFuel .outOfFuel
  | fail : ResAgree a .fail .fail
  | done {s s' : St N p} (log : List Event) : Same a s s' → ResAgree a (.done s log) (.done s' log)

theorem loop_agree : ∀ (f : ℕ) (s s' : St N p) (log : List Event), Same a s s' → ResAgree a (loop a e f s log) (loop a e f s' log) := by
  intro f
  induction f with
  | zero => intro s s' log _; exact .outOfFuel
  | succ f ih =>
    intro s s' log h
    have hs := step_agree (e := e) h
    unfold loop
    generalize step a e s = x at hs
    generalize step a e s' = x' at hs
    cases hs with
    | fail => exact .fail
    | converged E h => exact .done _ h
    | restart h =>
      simp only
      rcases begin_agree (e := e) h with ⟨b1, b2⟩ | ⟨q, q', b1, b2, b3⟩
      · rw [b1, b2]; exact .fail
      · rw [b1, b2]; exact ih _ _ _ b3
    | next E h =>
      rename_i t t'
      simp only
      have hit : t'.iter = t.iter := by rw [h.rest]
      rw [hit]
      split_ifs
      · exact ih _ _ _ h
      · exact .fail

theorem finish_agree {s s' : St N p} (h : Same a s s') : finish a e s = finish a e s' := by
  have hl0 : live a 0 := Or.inl rfl
  have hb := h.r.opB a e s.iter 8 (src := 0) (sBY a) 1 hl0 (fun hB => by rw [sBY_none hB]; exact hl0)
  have hit : s'.iter = s.iter := by rw [h.rest]
  unfold finish
  simp only
  rw [hit]
  generalize opB a e s.iter 8 0 (sBY a) 1 s.r = q at hb
  generalize opB a e s.iter 8 0 (sBY a) 1 s'.r = q' at hb
  rw [hb 0 (Or.inl hl0), hb _ (Or.inr rfl)]

end parts

/-- C99: whatever the work arrays contain when the eigensolver is called, and whatever lies behind them, it computes the same; and it runs only
if it was given all the arrays it uses (one for the gradient, one for the preconditioned gradient, one for `B Y` if there is a `B`). -/
theorem C99_work_arrays (a : Args N p) (e : Env N p) (fuel : ℕ) (Y : M N p) (work work' : ℕ → M N p) :
    eigensolver a e fuel Y work = eigensolver a e fuel Y work' ∧
      (eigensolver a e fuel Y work ≠ none → ∀ k, used a k → k ≤ a.nWork) := by
  constructor
  · unfold eigensolver
    by_cases hw : a.nWork < 2 + nB a
    · rw [if_pos hw, if_pos hw]
    rw [if_neg hw, if_neg hw]
    have h0 : Same a (initial a Y work) (initial a Y work') := by
      refine ⟨fun k hk => ?_, rfl⟩
      unfold initial
      simp only
      by_cases hk0 : k = 0
      · rw [if_pos hk0, if_pos hk0]
      · rw [if_neg hk0, if_neg hk0]
        have : (cg a = true ∧ k = sD a) ∨ (pr a = true ∧ k = sPrev a) := hk.resolve_left hk0
        rw [if_pos this, if_pos this]
    rcases begin_agree (e := e) h0 with ⟨b1, b2⟩ | ⟨q, q', b1, b2, b3⟩
    · rw [b1, b2]
    · rw [b1, b2]
      simp only
      have hl := loop_agree (e := e) fuel q q' [] b3
      generalize loop a e fuel q [] = x at hl
      generalize loop a e fuel q' [] = x' at hl
      cases hl with
      | outOfFuel => rfl
      | fail => rfl
      | done log h =>
        rename_i t t'
        have hit : t'.iter = t.iter := by rw [h.rest]
        simp only
        rw [finish_agree h, hit]
  · intro h k hk
    have hw : ¬ a.nWork < 2 + nB a := by
      intro hw
      apply h
      unfold eigensolver
      rw [if_pos hw]
    have hB : sBY a ≤ 2 + nB a := by unfold sBY nB; split_ifs <;> omega
    rcases hk with (rfl | ⟨hc, rfl⟩ | ⟨hc, rfl⟩) | rfl | rfl | rfl
    · omega
    · have : a.nWork ≥ 3 + nB a := by simpa [cg] using hc
      unfold sD
      rw [if_pos hc]; exact this
    · have : a.nWork ≥ 4 + nB a := by simpa [pr] using hc
      unfold sPrev
      rw [if_pos hc]; exact this
    all_goals omega

/-- Non-vacuity: the run of `exact_run` with two different contents of the work arrays. -/
example : ∃ sol E', eigensolver (args 1 cc 2 exactFlags) env1 2 (col 1 0) (fun _ => 0) = some sol ∧
    eigensolver (args 1 cc 2 exactFlags) env1 2 (col 1 0) (fun k => col k 7) = some sol ∧ sol.log = [.trace 1, .trace E'] ∧ E' < 1 := by
  obtain ⟨-, -, -, sol, E', h1, h2, h3⟩ := exact_run fun _ => 0
  exact ⟨sol, E', h1, (C99_work_arrays _ _ _ _ _ _).1.trans h1, h2, h3⟩

end Mpb.Eig

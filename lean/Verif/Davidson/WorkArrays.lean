import Verif.Davidson.Runs

/-!
# C99: the work arrays of the Davidson eigensolver
-/

namespace Mpb.Davidson

open Matrix Mpb.Solver Mpb.Eig

variable {N p : ℕ}

theorem newBlocks_congr (q ib : ℕ) {V V' : ℕ → M N p} (AVib : M N p) : ∀ (n : ℕ) (d : ℕ → ℂ), (∀ k < n, V k = V' k) →
    newBlocks q ib V AVib n d = newBlocks q ib V' AVib n d
  | 0, _, _ => rfl
  | n + 1, d, h => by
    unfold newBlocks
    rw [newBlocks_congr q ib AVib n d fun k hk => h k (by omega), h n (by omega)]

theorem combine_congr (q it : ℕ) (S : ℕ → ℂ) {W W' : ℕ → M N p} (X X' : M N p) : ∀ n, (∀ k < n + 1, W k = W' k) →
    combine q it S W (n + 1) X = combine q it S W' (n + 1) X'
  | 0, h => by
    simp only [combine, Option.bind_some, if_true, h 0 (by omega), addBlock, zero_smul]
  | n + 1, h => by
    have ih := combine_congr q it S X X' n fun k hk => h k (by omega)
    show (combine q it S W (n + 1) X).bind _ = (combine q it S W' (n + 1) X').bind _
    rw [ih, h (n + 1) (by omega)]

theorem orthogonalize_congr {V V' : ℕ → M N p} : ∀ (n : ℕ) (W : M N p), (∀ k < n, V k = V' k) → orthogonalize V n W = orthogonalize V' n W
  | 0, _, _ => rfl
  | n + 1, W, h => by
    unfold orthogonalize
    rw [orthogonalize_congr n W fun k hk => h k (by omega), h n (by omega)]

/-- Two states that differ only in arrays that do not matter: the basis up to the current index, the images below it. -/
structure Same (s s' : St N p) : Prop where
  V : ∀ k ≤ s.ibasis, s.V k = s'.V k
  AV : ∀ k < s.ibasis, s.AV k = s'.AV k
  rest : s' = { s with V := s'.V, AV := s'.AV }

/-- Two results of the first half that agree. -/
structure SameRitz (ib : ℕ) (w w' : Ritz N p) : Prop where
  AV : ∀ k ≤ ib, w.AV k = w'.AV k
  rest : w' = { w with AV := w'.AV }

theorem ritz_agree {a : Args N p} {e : Env N p} {s s' : St N p} (h : Same s s') :
    (ritz a e s = none ∧ ritz a e s' = none) ∨ ∃ w w', ritz a e s = some w ∧ ritz a e s' = some w' ∧ SameRitz s.ibasis w w' := by
  obtain ⟨V', AV', Y, vavP, vav, vals, prevE, ib, iter⟩ := s'
  obtain ⟨V, AV, _, _, _, _, _, _, _⟩ := s
  obtain ⟨h1, h2, h3⟩ := h
  simp only [St.mk.injEq, true_and] at h3
  obtain ⟨rfl, rfl, rfl, rfl, rfl, rfl, rfl⟩ := h3
  dsimp only at h1 h2
  unfold ritz
  simp only [Function.update_self]
  rw [h1 ib le_rfl, newBlocks_congr _ _ _ (ib + 1) _ (V' := V') fun k hk => h1 k (by omega)]
  cases newBlocks (size p ib) ib V' (a.A * V' ib) (ib + 1) (resize vavP (size p ib) (e.junk iter) vav) with
  | none => exact Or.inl ⟨rfl, rfl⟩
  | some vav' =>
    simp only [Option.bind_some]
    rw [combine_congr _ _ _ (e.junkY iter) (e.junkY iter) ib (W' := V') fun k hk => h1 k (by omega)]
    cases combine (size p ib) (itarget a.target p (size p ib) (e.heev (size p ib) (upper2full (size p ib) vav')).2)
      (e.heev (size p ib) (upper2full (size p ib) vav')).1 V' (ib + 1) (e.junkY iter) with
    | none => exact Or.inl ⟨rfl, rfl⟩
    | some Y' =>
      refine Or.inr ⟨_, _, rfl, rfl, fun k hk => ?_, rfl⟩
      simp only
      by_cases hkb : k = ib
      · subst hkb; rw [Function.update_self, Function.update_self]
      · rw [Function.update_of_ne hkb, Function.update_of_ne hkb]
        exact h2 k (by omega)

theorem expand_agree {a : Args N p} {e : Env N p} {s s' : St N p} (h : Same s s') (hb : s.ibasis < nbasis a) {w w' : Ritz N p}
    (hw : SameRitz s.ibasis w w') :
    (expand a e s w = none ∧ expand a e s' w' = none) ∨ ∃ t t', expand a e s w = some t ∧ expand a e s' w' = some t' ∧ Same t t' := by
  obtain ⟨V', AV', Y, vavP, vav, vals, prevE, ib, iter⟩ := s'
  obtain ⟨V, AV, _, _, _, _, _, _, _⟩ := s
  obtain ⟨h1, h2, h3⟩ := h
  simp only [St.mk.injEq, true_and] at h3
  obtain ⟨rfl, rfl, rfl, rfl, rfl, rfl, rfl⟩ := h3
  obtain ⟨wAV', wvav, wS, wit, wvals, wY⟩ := w'
  obtain ⟨wAV, _, _, _, _, _⟩ := w
  obtain ⟨w1, w2⟩ := hw
  simp only [Ritz.mk.injEq, true_and] at w2
  obtain ⟨rfl, rfl, rfl, rfl, rfl⟩ := w2
  dsimp only at h1 h2 w1 hb
  have key : ∀ (V V' AV AV' : ℕ → M N p) (ib2 vp : ℕ) (vv : ℕ → ℂ), (∀ k ≤ ib2, V k = V' k) → (∀ k < ib2, AV k = AV' k) →
      let F : (ℕ → M N p) → (ℕ → M N p) → Option (St N p) := fun V AV =>
        let V := Function.update V ib2 (residual (V ib2) wY wvals)
        let AV := Function.update AV ib2 (applyK a (V ib2) wY wvals)
        let AV := Function.update AV ib2 (constrain a (AV ib2))
        let AV := Function.update AV ib2 (orthogonalize V ib2 (AV ib2))
        (orthonormalize e (AV ib2)).map fun X =>
          { V := Function.update V ib2 X, AV := AV, Y := wY, vavP := vp, vav := vv, vals := wvals, prevE := energy wvals, ibasis := ib2,
            iter := iter + 1 }
      (F V AV = none ∧ F V' AV' = none) ∨ ∃ t t', F V AV = some t ∧ F V' AV' = some t' ∧ Same t t' := by
    intro V V' AV AV' ib2 vp vv hV hA
    simp only [Function.update_self]
    rw [hV ib2 le_rfl, orthogonalize_congr ib2 _ (V' := Function.update V' ib2 (residual (V' ib2) wY wvals)) fun k hk => by
      rw [Function.update_of_ne (by omega), Function.update_of_ne (by omega), hV k (by omega)]]
    cases orthonormalize e (orthogonalize (Function.update V' ib2 (residual (V' ib2) wY wvals)) ib2
      (constrain a (applyK a (residual (V' ib2) wY wvals) wY wvals))) with
    | none => exact Or.inl ⟨rfl, rfl⟩
    | some X =>
      refine Or.inr ⟨_, _, rfl, rfl, fun k hk => ?_, fun k hk => ?_, rfl⟩
      · dsimp only at hk ⊢
        by_cases hkb : k = ib2
        · subst hkb; simp only [Function.update_self]
        · simp only [Function.update_of_ne hkb]
          exact hV k hk
      · dsimp only at hk ⊢
        have hkb : k ≠ ib2 := by omega
        simp only [Function.update_of_ne hkb]
        exact hA k hk
  unfold expand
  simp only
  rw [combine_congr _ _ _ (V ((ib + 1) % nbasis a)) (V' ((ib + 1) % nbasis a)) ib (W' := wAV') fun k hk => w1 k (by omega)]
  cases combine (size p ib) wit wS wAV' (ib + 1) (V' ((ib + 1) % nbasis a)) with
  | none => exact Or.inl ⟨rfl, rfl⟩
  | some AY =>
    simp only [Option.bind_some]
    by_cases hr : (ib + 1) % nbasis a = 0
    · simp only [hr, decide_true, if_true, Function.update_self]
      refine key _ _ _ _ 1 _ _ (fun k hk => ?_) (fun k hk => ?_)
      · by_cases hk1 : k = 1
        · subst hk1; rw [Function.update_self, Function.update_self]
        · have hk0 : k = 0 := by omega
          subst hk0
          rw [Function.update_of_ne hk1, Function.update_of_ne hk1, Function.update_self, Function.update_self]
      · have hk0 : k = 0 := by omega
        subst hk0
        rw [Function.update_self, Function.update_self]
    · have hlt : ib + 1 < nbasis a := by
        rcases Nat.lt_or_ge (ib + 1) (nbasis a) with h | h
        · exact h
        · exfalso; apply hr
          rw [show ib + 1 = nbasis a by omega, Nat.mod_self]
      simp only [hr, decide_false, Bool.false_eq_true, if_false]
      have hmod : (ib + 1) % nbasis a = ib + 1 := Nat.mod_eq_of_lt hlt
      rw [hmod]
      exact key _ _ _ _ (ib + 1) _ _ (fun k hk => by
        by_cases hkb : k = ib + 1
        · subst hkb; rw [Function.update_self, Function.update_self]
        · rw [Function.update_of_ne hkb, Function.update_of_ne hkb]
          exact h1 k (by omega)) (fun k hk => w1 k (by omega))

/-- What `expand` does to the current index. -/
theorem expand_ibasis {a : Args N p} {e : Env N p} {s t : St N p} {w : Ritz N p} (h : expand a e s w = some t) :
    t.ibasis = if (s.ibasis + 1) % nbasis a = 0 then 1 else (s.ibasis + 1) % nbasis a := by
  unfold expand at h
  simp only at h
  cases hc : combine (size p s.ibasis) w.it w.S w.AV (s.ibasis + 1) (s.V ((s.ibasis + 1) % nbasis a)) with
  | none => rw [hc] at h; simp at h
  | some AY =>
    rw [hc] at h
    simp only [Option.bind_some, Option.map_eq_some_iff] at h
    obtain ⟨X, -, rfl⟩ := h
    by_cases hr : (s.ibasis + 1) % nbasis a = 0 <;> simp [hr]

theorem expand_bound {a : Args N p} {e : Env N p} (hn : 4 ≤ a.nWork) {s t : St N p} {w : Ritz N p} (h : expand a e s w = some t) :
    t.ibasis < nbasis a := by
  rw [expand_ibasis h]
  have : 2 ≤ nbasis a := by unfold nbasis; omega
  split_ifs
  · omega
  · exact Nat.mod_lt _ (by omega)

theorem expand_iter {a : Args N p} {e : Env N p} {s t : St N p} {w : Ritz N p} (h : expand a e s w = some t) : t.iter = s.iter + 1 := by
  unfold expand at h
  simp only at h
  cases hc : combine (size p s.ibasis) w.it w.S w.AV (s.ibasis + 1) (s.V ((s.ibasis + 1) % nbasis a)) with
  | none => rw [hc] at h; simp at h
  | some AY =>
    rw [hc] at h
    simp only [Option.bind_some, Option.map_eq_some_iff] at h
    obtain ⟨X, -, rfl⟩ := h
    rfl

theorem loop_agree {a : Args N p} {e : Env N p} (hn : 4 ≤ a.nWork) : ∀ (f : ℕ) (s s' : St N p) (log : List (Fin p → ℝ)), Same s s' →
    s.ibasis < nbasis a →
    (loop a e f s log = loop a e f s' log) ∨ ∃ t t' l, loop a e f s log = .done t l ∧ loop a e f s' log = .done t' l ∧ t.Y = t'.Y ∧ t.iter = t'.iter
  | 0, _, _, _, _, _ => Or.inl rfl
  | f + 1, s, s', log, h, hb => by
    have r1 : s'.iter = s.iter := by rw [h.rest]
    have r2 : s'.prevE = s.prevE := by rw [h.rest]
    unfold loop
    rcases ritz_agree (a := a) (e := e) h with ⟨q1, q2⟩ | ⟨w, w', q1, q2, hw⟩
    · left; rw [q1, q2]
    · have v1 : w'.vals = w.vals := by rw [hw.rest]
      have v2 : w'.Y = w.Y := by rw [hw.rest]
      rw [q1, q2]
      simp only
      rw [r1, r2, v1]
      by_cases hc : Converged a.tol s.iter (energy w.vals) s.prevE
      · rw [if_pos hc, if_pos hc]
        exact Or.inr ⟨_, _, _, rfl, rfl, v2.symm, rfl⟩
      · rw [if_neg hc, if_neg hc]
        rcases expand_agree h hb hw with ⟨x1, x2⟩ | ⟨t, t', x1, x2, x3⟩
        · left; rw [x1, x2]
        · rw [x1, x2]
          simp only
          have : t'.iter = t.iter := by rw [x3.rest]
          rw [this]
          split_ifs with hl
          · exact loop_agree hn f t t' _ x3 (expand_bound hn x1)
          · exact Or.inl rfl

/-! ## The specification -/

/-- The states at the head of the loop of one run. -/
inductive Spec.Visited (a : Args N p) (e : Env N p) (Y : M N p) (work : ℕ → M N p) : St N p → Prop
  | first (s : St N p) : initial a e Y work = some s → Spec.Visited a e Y work s
  | next (s t : St N p) (w : Ritz N p) : Spec.Visited a e Y work s → ritz a e s = some w → expand a e s w = some t → Spec.Visited a e Y work t

/-- The work array that holds the `k`-th block of the basis: `V = Work`, eigensolver_davidson.c:80. -/
def Spec.cellV (_a : Args N p) (k : ℕ) : ℕ := k

/-- The work array that holds the image of the `k`-th block: `AV = Work + nbasis`, eigensolver_davidson.c:81. -/
def Spec.cellAV (a : Args N p) (k : ℕ) : ℕ := nbasis a + k

/-- C99 (Davidson).  What the caller left in the work arrays has no influence on the result; in every iteration of a run that passes the
check of their number, the blocks of the basis and their images are in work arrays that exist, all different. -/
theorem C99_davidson (a : Args N p) (e : Env N p) (fuel : ℕ) (Y : M N p) (work work' : ℕ → M N p) :
    davidson a e fuel Y work = davidson a e fuel Y work' ∧
      (4 ≤ a.nWork → ∀ s, Spec.Visited a e Y work s → ∀ j ≤ s.ibasis, ∀ k ≤ s.ibasis,
        Spec.cellV a j < a.nWork ∧ Spec.cellAV a j < a.nWork ∧ Spec.cellV a j ≠ Spec.cellAV a k ∧
          (j ≠ k → Spec.cellV a j ≠ Spec.cellV a k ∧ Spec.cellAV a j ≠ Spec.cellAV a k)) := by
  constructor
  · unfold davidson
    by_cases hw : a.nWork < 4
    · rw [if_pos hw, if_pos hw]
    rw [if_neg hw, if_neg hw]
    have hn : 4 ≤ a.nWork := by omega
    unfold initial
    simp only
    cases orthonormalize e (constrain a Y) with
    | none => rfl
    | some V0 =>
      simp only [Option.map_some, Option.bind_some]
      have h0 : Same (⟨Function.update work 0 V0, fun i => work (nbasis a + i), constrain a Y, 0, e.junk 0, fun _ => 0, 0, 0, 0⟩ : St N p)
          ⟨Function.update work' 0 V0, fun i => work' (nbasis a + i), constrain a Y, 0, e.junk 0, fun _ => 0, 0, 0, 0⟩ := by
        refine ⟨fun k hk => ?_, fun k hk => absurd hk (by simp), rfl⟩
        have : k = 0 := by simpa using hk
        subst this
        simp
      rcases loop_agree (e := e) hn fuel _ _ [] h0 (show 0 < nbasis a by unfold nbasis; omega) with h | ⟨t, t', l, h1, h2, h3, h4⟩
      · rw [h]
      · rw [h1, h2]
        simp only
        rw [h3, h4]
  · intro hn s hs
    have hb : s.ibasis < nbasis a := by
      cases hs with
      | first _ h =>
        unfold initial at h
        simp only [Option.map_eq_some_iff] at h
        obtain ⟨V0, -, rfl⟩ := h
        show 0 < a.nWork / 2
        omega
      | next s t w _ _ h => exact expand_bound hn h
    intro j hj k hk
    have : nbasis a + nbasis a ≤ a.nWork := by unfold nbasis; omega
    unfold Spec.cellV Spec.cellAV
    refine ⟨by omega, by omega, by omega, fun h => ⟨h, by omega⟩⟩

/-- Non-vacuity: a run that returns, with two different contents of the work arrays. -/
example : ∃ (e : Env 2 1) (sol : Solution 2 1), davidson exampleArgs e 100000 (Eig.col 1 1) (fun _ => 0) = some sol ∧
    davidson exampleArgs e 100000 (Eig.col 1 1) (fun k => Eig.col k 7) = some sol ∧ sol.iterations = 1 ∧
    ∃ s, Spec.Visited exampleArgs e (Eig.col 1 1) (fun _ => 0) s := by
  obtain ⟨e, sol, -, h, h'⟩ := example_returns
  refine ⟨e, sol, h, ((C99_davidson _ _ _ _ _ _).1.symm).trans h, h', ?_⟩
  unfold davidson at h
  split_ifs at h
  simp only [Option.bind_eq_some_iff] at h
  obtain ⟨s, hs, -⟩ := h
  exact ⟨s, .first s hs⟩

end Mpb.Davidson

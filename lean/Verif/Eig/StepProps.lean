import Verif.Eig.Lemmas

/-!
# One pass through the loop, and the whole run
-/

namespace Mpb.Eig

open Matrix Mpb.Solver

open scoped ComplexOrder

variable {N p : ℕ}

theorem rayleigh_trace {A B : Matrix (Fin N) (Fin N) ℂ} {Y : M N p} {U : Sq p} (hU : U = (Yᴴ * B * Y)⁻¹) :
    (Yᴴ * A * Y * U).trace.re = Spec.rayleigh A B Y := by
  rw [hU]; rfl

theorem injective_of_unit {Y Y' : M N p} {S : Sq p} (hS : IsUnit S) (h : Y' = Y * S) (hi : Function.Injective Y'.mulVec) :
    Function.Injective Y.mulVec := by
  have hd : IsUnit S.det := (Matrix.isUnit_iff_isUnit_det S).1 hS
  intro u v huv
  have e : ∀ w, Y'.mulVec (S⁻¹.mulVec w) = Y.mulVec w := by
    intro w
    rw [h, ← Matrix.mulVec_mulVec, Matrix.mulVec_mulVec (M := S), Matrix.mul_nonsing_inv _ hd, Matrix.one_mulVec]
  have h1 : S⁻¹.mulVec u = S⁻¹.mulVec v := hi (by rw [e, e, huv])
  have h2 := congrArg S.mulVec h1
  rwa [Matrix.mulVec_mulVec, Matrix.mulVec_mulVec, Matrix.mul_nonsing_inv _ hd, Matrix.one_mulVec, Matrix.one_mulVec] at h2

/-- What is common to all iterations that get past the preparation. -/
theorem prepared_trace {a : Args N p} {e : Env N p} (g : Good a) {s : St N p} {r : ℕ → M N p} {YtBY U : Sq p} (h : Prepared a s r YtBY U)
    (it : ℕ) :
    (evalTrace a e it U r).2.trace.re = Spec.rayleigh a.A (Bm a) (s.r 0) ∧ Spec.rayleigh a.A (Bm a) (r 0) = Spec.rayleigh a.A (Bm a) (s.r 0) ∧
      Function.Injective (s.r 0).mulVec ∧ Function.Injective (r 0).mulVec ∧ U.IsHermitian := by
  have hUH : U.IsHermitian := by rw [h.inv]; exact h.pos.isHermitian.inv
  obtain ⟨S, uS, eS⟩ := h.unit
  have hi : Function.Injective (r 0).mulVec := posDef_injective (by rw [← h.over]; exact h.pos)
  have hr : Spec.rayleigh a.A (Bm a) (r 0) = Spec.rayleigh a.A (Bm a) (s.r 0) := by rw [eS, rayleigh_mul _ _ _ _ uS]
  refine ⟨?_, hr, injective_of_unit uS eS hi, hi, hUH⟩
  rw [(evalTrace_spec a e it U r hUH).1, ← hr]
  exact rayleigh_trace (by rw [h.inv, h.over])

/-- The converged case. -/
theorem step_converged {a : Args N p} {e : Env N p} (g : Good a) (he : EnvOK e) {s s' : St N p} {E : ℝ} (hC : Constrained a (s.r 0))
    (h : step a e s = .converged s' E) :
    E = Spec.rayleigh a.A (Bm a) (s.r 0) ∧ Spec.rayleigh a.A (Bm a) (s'.r 0) = E ∧ Function.Injective (s.r 0).mulVec ∧
      Function.Injective (s'.r 0).mulVec ∧ Constrained a (s'.r 0) ∧ Converged a.tol s.iter E s.prevE ∧ s'.iter = s.iter := by
  unfold step at h
  simp only at h
  split at h
  · cases h
  · split_ifs at h
  · rename_i r YtBY U tr hp
    have P := prepare_spec g he s hp
    obtain ⟨t1, t2, t3, t4, t5⟩ := prepared_trace (e := e) g P s.iter
    have ef := (evalTrace_spec a e s.iter U r t5).2 0 (by decide) (by decide)
    by_cases hc : Converged a.tol s.iter (evalTrace a e s.iter U r).2.trace.re s.prevE
    · rw [if_pos hc] at h
      simp only [Out.converged.injEq] at h
      obtain ⟨rfl, rfl⟩ := h
      obtain ⟨S, -, eS⟩ := P.unit
      refine ⟨t1, ?_, t3, ?_, ?_, hc, rfl⟩
      · simp only; rw [ef, t2, t1]
      · simp only; rw [ef]; exact t4
      · simp only; rw [ef, eS]; exact constrained_mul hC S
    · rw [if_neg hc] at h
      split at h
      · cases h
      · split at h <;> cases h

/-- The case of a further iteration, for all flags. -/
theorem step_next {a : Args N p} {e : Env N p} (g : Good a) (he : EnvOK e) {s s' : St N p} {E : ℝ} (h : step a e s = .next s' E) :
    E = Spec.rayleigh a.A (Bm a) (s.r 0) ∧ Function.Injective (s.r 0).mulVec ∧ Constrained a (s'.r 0) ∧ s'.prevE = E ∧
      s'.iter = s.iter + 1 ∧ s'.restarts = s.restarts := by
  unfold step at h
  simp only at h
  split at h
  · cases h
  · split_ifs at h
  · rename_i r YtBY U tr hp
    have P := prepare_spec g he s hp
    obtain ⟨t1, t2, t3, t4, t5⟩ := prepared_trace (e := e) g P s.iter
    by_cases hc : Converged a.tol s.iter (evalTrace a e s.iter U r).2.trace.re s.prevE
    · rw [if_pos hc] at h; cases h
    rw [if_neg hc] at h
    split at h
    · cases h
    · split at h
      · cases h
      · rename_i l hl
        simp only [Out.next.injEq] at h
        obtain ⟨rfl, rfl⟩ := h
        exact ⟨t1, t3, (constrain_spec a g 0 l.r).1, rfl, rfl, rfl⟩

theorem step_restart {a : Args N p} {e : Env N p} {s s' : St N p} (h : step a e s = .restart s') :
    s'.iter = s.iter ∧ s'.restarts = s.restarts + 1 ∧ s.iter + 10 * (s.restarts + 1) < maxIterations ∧ s'.prevE = s.prevE ∧
      s'.prevTheta = s.prevTheta ∧ s'.forceExact = s.forceExact ∧ (a.fl.forceApprox = false → s'.useLinmin = s.useLinmin) ∧
      (cg a = true → s'.r (sD a) = s.r (sD a)) := by
  unfold step at h
  simp only at h
  split at h
  · cases h
  · rename_i r hp
    split_ifs at h with hc h1 h2
    all_goals
      simp only [Out.restart.injEq] at h
      subst h
      refine ⟨rfl, rfl, by assumption, rfl, rfl, rfl, fun hf => by simp_all, fun hcg => ?_⟩
      obtain ⟨s1, s2, s3⟩ := sD_cases a
      have h3 := s1 hcg
      simp only
      rw [put_ne _ _ (by omega)]
      unfold prepare at hp
      simp only at hp
      split at hp
      · simp only [Prep.restart.injEq] at hp
        rw [← hp]
        unfold measure
        simp only
        have hb : opB a e s.iter 0 0 (sBY a) 1 s.r (sD a) = s.r (sD a) ∧ sD a ≠ 0 ∧ (a.B.isSome = true → sD a ≠ sBY a) := by
          refine ⟨?_, by omega, fun hB => ?_⟩
          · cases hB : a.B with
            | none => simp [opB, hB]
            | some B =>
              refine (opB_spec a e s.iter 0 s.r).2.2 _ (by omega) ?_
              rw [sBY_some hB]
              exact s3 (by rw [hB]; rfl)
          · unfold sBY
            rw [if_pos hB]
            exact s3 hB
        split_ifs with hB
        · rw [put_ne _ _ (hb.2.2 hB), put_ne _ _ hb.2.1, hb.1]
        · rw [put_ne _ _ hb.2.1, hb.1]
      · split_ifs at hp
        · split at hp <;> cases hp
  · rename_i r YtBY U tr hp
    by_cases hc : Converged a.tol s.iter (evalTrace a e s.iter U r).2.trace.re s.prevE
    · rw [if_pos hc] at h; cases h
    rw [if_neg hc] at h
    split at h
    · cases h
    · split at h <;> cases h

theorem begin_spec {a : Args N p} {e : Env N p} (g : Good a) {s s' : St N p} (h : begin a e s = some s') :
    Constrained a (s'.r 0) ∧ s'.iter = s.iter ∧ s'.restarts = s.restarts ∧ s'.prevE = s.prevE ∧ s'.prevTheta = s.prevTheta ∧
      s'.forceExact = s.forceExact ∧ s'.useLinmin = s.useLinmin ∧ (cg a = true → s'.r (sD a) = s.r (sD a)) := by
  unfold begin at h
  rw [Option.map_eq_some_iff] at h
  obtain ⟨r, hr, rfl⟩ := h
  obtain ⟨c1, c2, c3⟩ := constrain_spec a g 0 r
  refine ⟨c1, rfl, rfl, rfl, rfl, rfl, rfl, fun hcg => ?_⟩
  obtain ⟨s1, s2, s3⟩ := sD_cases a
  have h3 := s1 hcg
  simp only
  rw [c3 _ (by omega)]
  split_ifs at hr
  · simp only [Option.map_eq_some_iff] at hr
    obtain ⟨U, -, rfl⟩ := hr
    rw [put_ne _ _ (by omega), put_ne _ _ (by omega)]
    cases hB : a.B with
    | none => simp [opB, hB]
    | some B =>
      refine (opB_spec a e s.iter 7 s.r).2.2 _ (by omega) ?_
      rw [sBY_some hB]
      exact s3 (by rw [hB]; rfl)
  · simp only [Option.some.injEq] at hr
    rw [hr]

/-! ## The exact mode -/

/-- The conditions under which every line minimisation is exact: the flag, or times that never favour the approximate one; the approximate
one is not forced, the orthogonal preconditioner is not used, and an operator that spoils its scratch array does not get the search
direction as scratch. -/
structure Exact (a : Args N p) (e : Env N p) : Prop where
  force : a.fl.forceExact = true ∨ ∀ i, e.tExact i ≤ e.tApprox i * 2
  noApprox : a.fl.forceApprox = false
  noOrtho : a.fl.orthoPre = false
  scratch : cg a = true ∨ a.scratch = false

/-- The invariant of the loop in this mode. -/
structure Inv (a : Args N p) (s : St N p) : Prop where
  hY : Constrained a (s.r 0)
  hD : cg a = true → Constrained a (s.r (sD a))
  theta : |s.prevTheta| ≤ Real.pi
  linmin : s.useLinmin = true
  force : s.forceExact = a.fl.forceExact

theorem step_exact {a : Args N p} {e : Env N p} (g : Good a) (he : EnvOK e) (hx : Exact a e) {s s' : St N p} {E : ℝ} (I : Inv a s)
    (h : step a e s = .next s' E) :
    Inv a s' ∧ (Function.Injective (s'.r 0).mulVec → Spec.rayleigh a.A (Bm a) (s'.r 0) ≤ E) := by
  unfold step at h
  simp only at h
  split at h
  · cases h
  · split_ifs at h
  · rename_i r YtBY U tr hp
    have P := prepare_spec g he s hp
    obtain ⟨t1, t2, t3, t4, t5⟩ := prepared_trace (e := e) g P s.iter
    obtain ⟨e1, e2⟩ := evalTrace_spec a e s.iter U r t5
    obtain ⟨s1, s2, s3⟩ := sD_cases a
    obtain ⟨S, -, eS⟩ := P.unit
    have hb : sBY a ≠ 1 ∧ sBY a ≠ 2 := by unfold sBY; split_ifs <;> decide
    have hY : Constrained a (r 0) := by rw [eS]; exact constrained_mul I.hY S
    have hD : cg a = true → Constrained a (r (sD a)) := by
      intro hc
      have h3 := s1 hc
      rw [P.frame _ (by omega) (by omega) ?_]
      · exact I.hD hc
      · unfold sBY
        split_ifs with hB
        · exact s3 hB
        · omega
    by_cases hc : Converged a.tol s.iter (evalTrace a e s.iter U r).2.trace.re s.prevE
    · rw [if_pos hc] at h; cases h
    rw [if_neg hc] at h
    split at h
    · cases h
    · rename_i d hd
      obtain ⟨d1, d2⟩ := direction_spec a e g s _ _ _ _ _ _ hx.noOrtho (by rw [e2 _ hb.1 hb.2, e2 _ (by decide) (by decide), P.by_])
        (by rw [e2 _ (by decide) (by decide)]; exact hY)
        (fun hc => by have := s1 hc; rw [e2 _ (by omega) (by omega)]; exact hD hc) hd
      rw [e2 _ (by decide) (by decide)] at d1
      split at h
      · cases h
      · rename_i l hl
        simp only [Out.next.injEq] at h
        obtain ⟨rfl, rfl⟩ := h
        unfold lineMin at hl
        simp only [hx.noApprox, I.linmin, if_true, Bool.false_eq_true, if_false, Option.bind_some] at hl
        obtain ⟨x1, x2, x3, x4, x5, x6⟩ := exactMin_spec (l := ⟨d.r, U, 0, s.prevTheta, true, s.forceExact, 1, s.improvement⟩) g he s.iter hx.scratch
          (by simp only; rw [d1]; exact P.over) P.pos P.inv (by simp only; rw [d1]; exact e1) I.theta d2 (by simp only; rw [d1]; exact hY) hl
        have hcon : (constrain a 0 l.r) = l.r := (constrain_spec a g 0 l.r).2.1 x1
        have hap : ¬ (l.forceExact = false ∧ l.improvement > 0 ∧ l.improvement ≤ 0.05 ∧ e.tExact s.iter > e.tApprox s.iter * 2) := by
          rintro ⟨y1, -, -, y4⟩
          rcases hx.force with hf | hf
          · rw [x5] at y1
            simp only at y1
            rw [I.force, hf] at y1
            cases y1
          · exact absurd (hf s.iter) (not_le.2 y4)
        simp only at x6
        rw [d1, t2] at x6
        refine ⟨⟨?_, ?_, ?_, ?_, ?_⟩, ?_⟩
        · simp only [finishIter]; rw [hcon]; exact x1
        · intro hc; simp only [finishIter]; rw [hcon]; exact x2 hc
        · simp only [finishIter, hap, decide_false, Bool.false_eq_true, if_false, hx.noApprox]
          exact (abs_le.2 ⟨by linarith [Real.neg_pi_div_two_lt_arctan l.theta, Real.pi_pos], by linarith [Real.arctan_lt_pi_div_two l.theta, Real.pi_pos]⟩)
        · simp only [finishIter, hap, decide_false, Bool.false_eq_true, if_false, hx.noApprox]
        · simp only [finishIter]; rw [x5]; exact I.force
        · simp only [finishIter]
          rw [hcon]
          intro hi
          rw [t1]
          exact x6 hi

/-! ## The run -/

/-- The latest trace in a record (latest first). -/
def lastTrace : List Event → ℝ
  | [] => 0
  | .trace E :: _ => E
  | .restart :: l => lastTrace l

/-- The number of traces in a record. -/
def traces : List Event → ℕ
  | [] => 0
  | .trace _ :: l => traces l + 1
  | .restart :: l => traces l

/-- How a finished run looks, for all flags. -/
theorem loop_done {a : Args N p} {e : Env N p} (g : Good a) (he : EnvOK e) : ∀ (f : ℕ) (s : St N p) (log : List Event) (s' : St N p) (log' : List Event),
    Constrained a (s.r 0) → s.prevE = lastTrace log → s.iter = traces log → loop a e f s log = .done s' log' →
    ∃ E l, log' = .trace E :: l ∧ Spec.rayleigh a.A (Bm a) (s'.r 0) = E ∧ Function.Injective (s'.r 0).mulVec ∧ Constrained a (s'.r 0) ∧
      Converged a.tol s'.iter E (lastTrace l) ∧ s'.iter = traces l := by
  intro f
  induction f with
  | zero => intro s log s' log' _ _ _ h; simp [loop] at h
  | succ f ih =>
    intro s log s' log' hC hE hi h
    rw [loop] at h
    split at h
    · cases h
    · rename_i s1 E hs
      simp only [Result.done.injEq] at h
      obtain ⟨rfl, rfl⟩ := h
      obtain ⟨c1, c2, c3, c4, c5, c6, c7⟩ := step_converged g he hC hs
      exact ⟨E, log, rfl, c2, c4, c5, by rw [c7, ← hE]; exact c6, by rw [c7, hi]⟩
    · rename_i s1 hs
      obtain ⟨r1, r2, r3, r4, r5⟩ := step_restart hs
      split at h
      · cases h
      · rename_i s2 hb
        obtain ⟨b1, b2, b3, b4, b5⟩ := begin_spec g hb
        exact ih s2 _ s' log' b1 (by rw [b4, r4, hE]; rfl) (by rw [b2, r1, hi]; rfl) h
    · rename_i s1 E hs
      obtain ⟨n1, n2, n3, n4, n5, n6⟩ := step_next g he hs
      split_ifs at h
      exact ih s1 _ s' log' n3 (by rw [n4]; rfl) (by rw [n5, hi]; rfl) h

/-- The record of a run in exact mode: consecutive traces do not increase. -/
def Mono : List Event → Prop
  | .trace E' :: .trace E :: l => E' ≤ E ∧ Mono (.trace E :: l)
  | _ :: l => Mono l
  | [] => True

theorem loop_mono {a : Args N p} {e : Env N p} (g : Good a) (he : EnvOK e) (hx : Exact a e) : ∀ (f : ℕ) (s : St N p) (log : List Event) (s' : St N p)
    (log' : List Event), Inv a s → Mono log →
    (∀ E l, log = .trace E :: l → Function.Injective (s.r 0).mulVec → Spec.rayleigh a.A (Bm a) (s.r 0) ≤ E) →
    loop a e f s log = .done s' log' → Mono log' := by
  intro f
  induction f with
  | zero => intro s log s' log' _ _ _ h; simp [loop] at h
  | succ f ih =>
    intro s log s' log' I hm hl h
    have add : ∀ E, E = Spec.rayleigh a.A (Bm a) (s.r 0) → Function.Injective (s.r 0).mulVec → Mono (.trace E :: log) := by
      intro E hE hi
      match log, hm, hl with
      | [], _, _ => simp [Mono]
      | .restart :: l, hm, _ => simpa [Mono] using hm
      | .trace E0 :: l, hm, hl => exact ⟨by rw [hE]; exact hl E0 l rfl hi, hm⟩
    rw [loop] at h
    split at h
    · cases h
    · rename_i s1 E hs
      simp only [Result.done.injEq] at h
      obtain ⟨rfl, rfl⟩ := h
      obtain ⟨c1, c2, c3, c4, c5, c6⟩ := step_converged g he I.hY hs
      exact add E c1 c3
    · rename_i s1 hs
      obtain ⟨r1, r2, r3, r4, r5, r6, r7, r8⟩ := step_restart hs
      split at h
      · cases h
      · rename_i s2 hb
        obtain ⟨b1, b2, b3, b4, b5, b6, b7, b8⟩ := begin_spec g hb
        refine ih s2 _ s' log' ⟨b1, fun hc => by rw [b8 hc, r8 hc]; exact I.hD hc, by rw [b5, r5]; exact I.theta, by rw [b7, r7 hx.noApprox]; exact I.linmin,
          by rw [b6, r6]; exact I.force⟩ ?_ (fun E l hh => by cases hh) h
        unfold Mono
        exact hm
    · rename_i s1 E hs
      obtain ⟨n1, n2, n3, n4, n5, n6⟩ := step_next g he hs
      obtain ⟨I', hd⟩ := step_exact g he hx I hs
      split_ifs at h
      exact ih s1 _ s' log' I' (add E n1 n2) (fun E' l hh => by simp only [List.cons.injEq, Event.trace.injEq] at hh; rw [← hh.1]; exact hd) h

/-- The loop never runs out of fuel if there is enough for all iterations and restarts. -/
theorem loop_fuel {a : Args N p} {e : Env N p} (g : Good a) (he : EnvOK e) : ∀ (f : ℕ) (s : St N p) (log : List Event),
    s.iter < maxIterations → s.restarts < 10000 → (maxIterations - s.iter) + (10000 - s.restarts) ≤ f → loop a e f s log ≠ .outOfFuel := by
  intro f
  induction f with
  | zero => intro s log h1 h2 h3; omega
  | succ f ih =>
    intro s log h1 h2 h3 h
    have hmax : maxIterations = 100000 := rfl
    rw [loop] at h
    split at h
    · cases h
    · cases h
    · rename_i s1 hs
      obtain ⟨r1, r2, r3, r4⟩ := step_restart hs
      split at h
      · cases h
      · rename_i s2 hb
        obtain ⟨b1, b2, b3, b4⟩ := begin_spec g hb
        exact ih s2 _ (by rw [b2, r1]; exact h1) (by rw [b3, r2]; omega) (by rw [b2, b3, r1, r2]; omega) h
    · rename_i s1 E hs
      obtain ⟨n1, n2, n3, n4, n5, n6⟩ := step_next g he hs
      split_ifs at h with hlt
      exact ih s1 _ hlt (by rw [n6]; exact h2) (by rw [n6, n5]; omega) h

/-! ## The end -/

theorem finish_spec {a : Args N p} {e : Env N p} (g : Good a) (he : EnvOK e) {s : St N p} (hi : Function.Injective (s.r 0).mulVec)
    (hC : Constrained a (s.r 0)) :
    ∃ Y vals, finish a e s = some (Y, vals) ∧ Yᴴ * Bm a * Y = 1 ∧ Yᴴ * a.A * Y = diagonal (fun i => ((vals i : ℝ) : ℂ)) ∧
      (∀ i j, i ≤ j → vals i ≤ vals j) ∧ Constrained a Y ∧ (∃ T, IsUnit T ∧ Y = s.r 0 * T) := by
  obtain ⟨h0, h1, h2⟩ := opB_spec a e s.iter 8 s.r
  have hpd : ((s.r 0)ᴴ * Bm a * s.r 0).PosDef := moved_posDef (Bm_posDef g) hi
  have hinv := (he.inv _ hpd.isHermitian).1 hpd
  unfold finish
  simp only
  rw [h0, h1, ← Matrix.mul_assoc, hinv]
  set O := (s.r 0)ᴴ * Bm a * s.r 0 with hO
  have hdet : IsUnit O.det := (Matrix.isUnit_iff_isUnit_det _).1 hpd.isUnit
  obtain ⟨q1, q2⟩ := he.sqrtm O⁻¹ hpd.inv
  set R := e.sqrtm O⁻¹ with hR
  have hRH : Rᴴ = R := q1
  have hRO : R * O * R = 1 := by
    have uR : IsUnit R.det := by
      have := sqrtm_unit he hpd.inv
      rw [← hR, hRH] at this
      exact (Matrix.isUnit_iff_isUnit_det _).1 this
    have h3 : R * (R * O) = 1 := by rw [← Matrix.mul_assoc, q2, Matrix.nonsing_inv_mul _ hdet]
    exact mul_eq_one_comm.1 h3
  have hAH : ((s.r 0 * Rᴴ)ᴴ * (a.A * (s.r 0 * Rᴴ))).IsHermitian := herm_quad g.hA _
  obtain ⟨v1, v2, v3, v4⟩ := he.heev _ hAH
  refine ⟨s.r 0 * Rᴴ * (e.heev ((s.r 0 * Rᴴ)ᴴ * (a.A * (s.r 0 * Rᴴ)))).1ᴴ, (e.heev ((s.r 0 * Rᴴ)ᴴ * (a.A * (s.r 0 * Rᴴ)))).2, rfl, ?_⟩
  generalize e.heev ((s.r 0 * Rᴴ)ᴴ * (a.A * (s.r 0 * Rᴴ))) = V at v1 v2 v3 v4 ⊢
  have uR : IsUnit Rᴴ := sqrtm_unit he hpd.inv
  have uV : IsUnit V.1ᴴ := IsUnit.of_mul_eq_one _ v2
  refine ⟨?_, ?_, v4, constrained_mul (constrained_mul hC _) _, ⟨Rᴴ * V.1ᴴ, uR.mul uV, by rw [Matrix.mul_assoc]⟩⟩
  · rw [hRH]
    have : (s.r 0 * R * V.1ᴴ)ᴴ * Bm a * (s.r 0 * R * V.1ᴴ) = V.1 * (R * O * R) * V.1ᴴ := by
      rw [hO]
      simp only [conjTranspose_mul, conjTranspose_conjTranspose, hRH, Matrix.mul_assoc]
    rw [this, hRO, Matrix.mul_one, v1]
  · have : (s.r 0 * Rᴴ * V.1ᴴ)ᴴ * a.A * (s.r 0 * Rᴴ * V.1ᴴ) = V.1 * ((s.r 0 * Rᴴ)ᴴ * (a.A * (s.r 0 * Rᴴ))) * V.1ᴴ := by
      rw [conjTranspose_mul, conjTranspose_conjTranspose]
      simp only [Matrix.mul_assoc]
    rw [this]
    conv_lhs => rw [v3]
    rw [show V.1 * (V.1ᴴ * diagonal (fun i => ((V.2 i : ℝ) : ℂ)) * V.1) * V.1ᴴ = (V.1 * V.1ᴴ) * diagonal (fun i => ((V.2 i : ℝ) : ℂ)) * (V.1 * V.1ᴴ) by
      simp only [Matrix.mul_assoc]]
    rw [v1, Matrix.one_mul, Matrix.mul_one]

end Mpb.Eig

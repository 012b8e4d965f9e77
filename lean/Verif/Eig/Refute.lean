import Verif.Eig.Props

/-!
# Where the solver falls short, and concrete runs
-/

namespace Mpb.Eig

open Matrix Mpb.Solver

open scoped ComplexOrder

variable {N p : ℕ}

/-! ## Exact starting blocks -/

theorem measure_pos {a : Args N p} (e : Env N p) (g : Good a) (it site : ℕ) (r : ℕ → M N p) (hi : Function.Injective (r 0).mulVec) :
    (measure a e it site r).2.PosDef := by
  obtain ⟨h0, h1, h2⟩ := opB_spec a e it site r
  have hpd : ((r 0)ᴴ * Bm a * r 0).PosDef := moved_posDef (Bm_posDef g) hi
  haveI : Nonempty (Fin p) := ⟨⟨0, g.hp⟩⟩
  have htr : 0 < ((r 0)ᴴ * Bm a * r 0).trace.re := by
    have := hpd.trace_pos
    exact (Complex.lt_def.1 this).1
  unfold measure
  simp only [h0, h1]
  rw [← Matrix.mul_assoc]
  have hy : 0 < Real.sqrt (((r 0)ᴴ * Bm a * r 0).trace.re / p) := Real.sqrt_pos.2 (div_pos htr (by exact_mod_cast g.hp))
  refine hpd.smul ?_
  rw [Complex.lt_def]
  simp only [Complex.zero_re, Complex.ofReal_re, Complex.zero_im, Complex.ofReal_im, and_true]
  positivity

/-- An independent block is never replaced by a random one. -/
theorem prepare_not_restart {a : Args N p} {e : Env N p} (g : Good a) (he : EnvOK e) (s : St N p) (hi : Function.Injective (s.r 0).mulVec)
    (r : ℕ → M N p) : prepare a e s ≠ .restart r := by
  have hpd := measure_pos e g s.iter 0 s.r hi
  intro h
  unfold prepare at h
  simp only [(he.inv _ hpd.isHermitian).1 hpd] at h
  split_ifs at h
  split at h <;> cases h

/-- The preparation succeeds for every independent block. -/
theorem prepare_ok {a : Args N p} {e : Env N p} (g : Good a) (he : EnvOK e) (s : St N p) (hi : Function.Injective (s.r 0).mulVec) :
    ∃ r YtBY U tr, prepare a e s = .ok r YtBY U tr := by
  have hpd := measure_pos e g s.iter 0 s.r hi
  obtain ⟨⟨c, m1⟩, m2, m3, m4⟩ := measure_spec a e s.iter 0 s.r g
  unfold prepare
  simp only [(he.inv _ hpd.isHermitian).1 hpd]
  split_ifs
  · have hr0 : ∀ (m : ℕ → M N p) (x : M N p), (put (put m 1 x) 0 (put m 1 x 1)) 0 = x := by
      intro m x
      rw [put_same, put_same]
    have hinj : Function.Injective ((measure a e s.iter 0 s.r).1 0 * (e.sqrtm (measure a e s.iter 0 s.r).2⁻¹)ᴴ).mulVec := by
      have h1 : Function.Injective ((measure a e s.iter 0 s.r).1 0).mulVec := posDef_injective (by rw [← m3]; exact hpd)
      have hu := sqrtm_unit he hpd.inv
      have h2 : Function.Injective ((e.sqrtm (measure a e s.iter 0 s.r).2⁻¹)ᴴ).mulVec := Matrix.mulVec_injective_iff_isUnit.2 hu
      intro u v huv
      rw [← Matrix.mulVec_mulVec, ← Matrix.mulVec_mulVec] at huv
      exact h2 (h1 huv)
    have hpd2 := measure_pos e g s.iter 1
      (put (put (measure a e s.iter 0 s.r).1 1 ((measure a e s.iter 0 s.r).1 0 * (e.sqrtm (measure a e s.iter 0 s.r).2⁻¹)ᴴ)) 0
        (put (measure a e s.iter 0 s.r).1 1 ((measure a e s.iter 0 s.r).1 0 * (e.sqrtm (measure a e s.iter 0 s.r).2⁻¹)ᴴ) 1))
      (by rw [hr0]; exact hinj)
    simp only [(he.inv _ hpd2.isHermitian).1 hpd2]
    exact ⟨_, _, _, _, rfl⟩
  · exact ⟨_, _, _, _, rfl⟩

/-- An iteration whose trace meets the tolerance ends the run. -/
theorem step_ends {a : Args N p} {e : Env N p} (g : Good a) (he : EnvOK e) (s : St N p) (hi : Function.Injective (s.r 0).mulVec)
    (hc : Converged a.tol s.iter (Spec.rayleigh a.A (Bm a) (s.r 0)) s.prevE) :
    ∃ s', step a e s = .converged s' (Spec.rayleigh a.A (Bm a) (s.r 0)) := by
  obtain ⟨r, YtBY, U, tr, hp⟩ := prepare_ok g he s hi
  obtain ⟨t1, -⟩ := prepared_trace (e := e) g (prepare_spec g he s hp) s.iter
  unfold step
  simp only [hp]
  rw [if_pos (by rw [t1]; exact hc), t1]
  exact ⟨_, rfl⟩

/-- C76 fails for the other half of what a user expects, that a solution handed to the solver comes back: if the starting block is an
exact solution (`A Y = B Y S`), the run ends in an abort (in exact arithmetic).  The tolerance is not looked at in the first iteration,
and the search direction, which is then zero, is divided by its norm. -/
theorem C76_exact_start_refuted {a : Args N p} {e : Env N p} (g : Good a) (he : EnvOK e) (ho : a.fl.orthoFirst = false) (hop : a.fl.orthoPre = false)
    (hK : ∀ K, a.K = some K → ∀ Y S, K 0 Y S = 0) (fuel : ℕ) (Y : M N p) (work : ℕ → M N p) (hi : Function.Injective Y.mulVec)
    (hC : Constrained a Y) {S : Sq p} (hS : a.A * Y = Bm a * Y * S) : eigensolver a e fuel Y work = none := by
  unfold eigensolver
  split_ifs
  · rfl
  cases hb : begin a e (initial a Y work) with
  | none => rfl
  | some s =>
    simp only
    have hs : s = { initial a Y work with r := constrain a 0 (initial a Y work).r, hist := fun _ => 10000 } := by
      unfold begin at hb
      simp only [ho, Bool.false_eq_true, if_false, Option.map_some, Option.some.injEq] at hb
      exact hb.symm
    have hcon : constrain a 0 (initial a Y work).r = (initial a Y work).r := (constrain_spec a g 0 _).2.1 (by simpa [initial] using hC)
    rw [hcon] at hs
    have h0 : s.r 0 = Y := by rw [hs]; simp [initial]
    have hit : s.iter = 0 := by rw [hs]; rfl
    obtain ⟨s1, s2, s3⟩ := sD_cases a
    have hD : cg a = true → s.r (sD a) = 0 := by
      intro hc
      have := s1 hc
      rw [hs]
      simp only [initial]
      rw [if_neg (by omega), if_pos (Or.inl ⟨hc, trivial⟩)]
    cases fuel with
    | zero => simp [loop]
    | succ f =>
      have hfail : step a e s = .fail := by
        cases hp : prepare a e s with
        | fail => unfold step; simp only [hp]
        | restart r => exact absurd hp (prepare_not_restart g he s (by rw [h0]; exact hi) r)
        | ok r YtBY U tr =>
          have P := prepare_spec g he s hp
          have hG := (C76_stationary g he hp).2 ⟨S, by rw [h0]; exact hS⟩
          obtain ⟨-, -, -, -, hUH⟩ := prepared_trace (e := e) g P s.iter
          obtain ⟨e1, e2⟩ := evalTrace_spec a e s.iter U r hUH
          unfold step
          simp only [hp]
          rw [if_neg (by rw [hit]; exact fun h => absurd h.1 (lt_irrefl 0))]
          generalize evalTrace a e s.iter U r = t at hG e1 e2 ⊢
          split
          · rfl
          · rename_i d hd
            have hd0 : d.r (sD a) = 0 := by
              obtain ⟨p0, p1, p2, p3⟩ : True ∧ True ∧ (precond a YtBY U (gradient a U t.2 t.1)) 2 = 0 ∧
                  ∀ k, 3 ≤ k → (precond a YtBY U (gradient a U t.2 t.1)) k = t.1 k := by
                refine ⟨trivial, trivial, ?_, ?_⟩
                · unfold precond
                  have hk : applyK a (gradient a U t.2 t.1 1) (gradient a U t.2 t.1 0) YtBY = 0 := by
                    rw [hG]
                    unfold applyK
                    cases hKK : a.K with
                    | none => rfl
                    | some K => exact hK K hKK _ _
                  rw [hk]
                  have hc2 : constrain a 2 (put (gradient a U t.2 t.1) 2 0) 2 = 0 := by
                    unfold constrain
                    cases a.C with
                    | none => simp only [put_same]
                    | some C => simp only [put_same, Matrix.mul_zero]
                  split_ifs
                  · rw [put_same, hc2]; simp
                  · exact hc2
                · intro k hk
                  unfold precond
                  have hc3 : ∀ x, constrain a 2 (put (gradient a U t.2 t.1) 2 x) k = t.1 k := by
                    intro x
                    unfold constrain gradient
                    cases a.C with
                    | none => simp only; rw [put_ne _ _ (by omega), put_ne _ _ (by omega)]
                    | some C => simp only; rw [put_ne _ _ (by omega), put_ne _ _ (by omega), put_ne _ _ (by omega)]
                  split_ifs
                  · rw [put_ne _ _ (by omega), hc3]
                  · exact hc3 _
              unfold direction at hd
              simp only at hd
              unfold orthoPre at hd
              simp only [hop, Bool.false_eq_true, if_false, Option.map_some, Option.some.injEq] at hd
              generalize precond a YtBY U (gradient a U t.2 t.1) = q at hd p2 p3
              have g2 : (gammaNum a q).1 2 = 0 ∧ (cg a = true → (gammaNum a q).1 (sD a) = 0) := by
                have hqD : cg a = true → q (sD a) = 0 := by
                  intro hc
                  have h3 := s1 hc
                  rw [p3 _ h3, e2 _ (by omega) (by omega), P.frame _ (by omega) (by omega) ?_, hD hc]
                  unfold sBY
                  split_ifs with hB
                  · exact s3 hB
                  · omega
                unfold gammaNum
                split_ifs with hc hpr
                · have hsp : sPrev a = 4 + nB a := by unfold sPrev; rw [if_pos hpr]
                  have hsd : sD a = 3 + nB a := by unfold sD; rw [if_pos hc]
                  refine ⟨?_, fun _ => ?_⟩
                  · simp only
                    rw [put_ne _ _ (by omega), put_ne _ _ (by omega), p2]
                  · simp only
                    rw [put_ne _ _ (by omega), put_ne _ _ (by have := s1 hc; omega), hqD hc]
                · exact ⟨p2, fun _ => hqD hc⟩
                · exact ⟨p2, fun h => absurd h hc⟩
              rw [← hd]
              split_ifs with hc
              · simp only [put_same]
                rw [g2.1, g2.2 hc]
                simp
              · have hsd : sD a = 2 := by unfold sD; rw [if_neg hc]
                simp only
                rw [hsd, g2.1]
            have hl : ∀ E prevE (l : Lin N p), l.r (sD a) = 0 → lineMin a e s.iter E prevE t.2 YtBY l = none := by
              intro E prevE l hl
              have hx : ∀ l : Lin N p, l.r (sD a) = 0 → exactMin a e s.iter E t.2 YtBY l = none := by
                intro l hl
                unfold exactMin
                simp only
                have hz : opB a e s.iter 5 (sD a) (sBD a) 1 l.r (sD a) = 0 ∨ opB a e s.iter 5 (sD a) (sBD a) 1 l.r (sBD a) = 0 := by
                  unfold opB
                  cases a.B with
                  | none => exact Or.inl hl
                  | some B => right; simp only [put_same]; rw [hl, Matrix.mul_zero]
                rw [if_pos]
                unfold trXtY
                rcases hz with hz | hz <;> rw [hz] <;> simp
              have ha : approxMin a e s.iter E prevE l = none := by
                unfold approxMin
                simp only
                rw [if_pos]
                unfold trXtY
                cases hB : a.B with
                | none =>
                  have : sBD a = sD a := by unfold sBD; simp [hB]
                  simp only [this]
                  rw [hl]
                  simp
                | some B => simp only [put_same]; rw [hl]; simp
              unfold lineMin
              split_ifs with hu
              · simp only [Option.bind_some, hu, if_true, hx l hl]
              · rw [ha]; rfl
            rw [hl _ _ _ hd0]
      simp only [loop, hfail]

/-! ## Negative operators -/

/-- C74 fails for operators with negative eigenvalues: if `A ≤ -B` the run never ends normally, whatever the tolerance, the flags and the
starting block, because the convergence test compares with the sum of the last two traces, not with its absolute value. -/
theorem C74_negative_refuted {a : Args N p} {e : Env N p} (g : Good a) (he : EnvOK e) (hneg : (-a.A - Bm a).PosSemidef) (fuel : ℕ) (Y : M N p)
    (work : ℕ → M N p) : eigensolver a e fuel Y work = none := by
  cases h : eigensolver a e fuel Y work with
  | none => rfl
  | some sol =>
    exfalso
    obtain ⟨s, s', log, hb, hr, hf, hit, hlog⟩ := eigensolver_inv h
    obtain ⟨b1, -⟩ := begin_spec g hb
    have tr := loop_traces g he fuel s [] s' log b1 (by simp) hr
    obtain ⟨-, -, l₁, E', l₂, E, r1, r2, r3, -⟩ := C74_result g he h
    have low : ∀ F, .trace F ∈ log → F ≤ -1 := by
      intro F hF
      obtain ⟨Z, z1, z2, z3⟩ := tr F hF
      obtain ⟨W, vals, w1, w2, w3⟩ := rayleigh_ritz g he work z1 z2
      rw [z3, ← w3]
      have hv : ∀ i, vals i ≤ -1 := by
        intro i
        have hq := (hneg.conjTranspose_mul_mul_same W).diag_nonneg (i := i)
        rw [Matrix.mul_sub, Matrix.sub_mul, w1.orthonormal, Matrix.mul_neg, Matrix.neg_mul, w1.diagonal] at hq
        simp only [Matrix.sub_apply, Matrix.neg_apply, Matrix.diagonal_apply_eq, Matrix.one_apply_eq] at hq
        have := (Complex.le_def.1 hq).1
        simp at this
        linarith
      haveI : Nonempty (Fin p) := ⟨⟨0, g.hp⟩⟩
      calc ∑ i, vals i ≤ ∑ _i : Fin p, (-1 : ℝ) := Finset.sum_le_sum fun i _ => hv i
        _ = -(p : ℝ) := by simp
        _ ≤ -1 := by
          have : (1 : ℝ) ≤ p := by exact_mod_cast g.hp
          linarith
    have m1 : E ≤ -1 := low E (by rw [← List.mem_reverse, ← hlog, r1]; simp)
    have m2 : E' ≤ -1 := low E' (by rw [← List.mem_reverse, ← hlog, r1]; simp)
    have := abs_nonneg (E - E')
    have h4 : a.tol * 0.5 * (E + E' + 1 / 10 ^ 7) ≤ 0 := mul_nonpos_of_nonneg_of_nonpos (by have := g.tol; positivity) (by norm_num; linarith)
    linarith

end Mpb.Eig

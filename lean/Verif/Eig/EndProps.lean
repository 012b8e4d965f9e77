import Verif.Eig.Runs
import Verif.Linmin.EndProps

/-!
# C122: the line minimisations of a run of the eigensolver end
-/

namespace Mpb.Eig

open Matrix Mpb.Solver

open scoped ComplexOrder

variable {N p : ℕ}

/-! ## The specification -/

/-- The environment with another number of evaluations granted to each line search. -/
def Spec.grant (e : Env N p) (k : ℕ) : Env N p := { e with evals := k }

/-- The outcome of the line search of an exact line minimisation, eigensolver.c:646-737 (`exactMin` uses this outcome: `exactMin_out`, `searching_fail`).
`none`: the direction is zero. -/
noncomputable def searchOut (a : Args N p) (e : Env N p) (it : ℕ) (E : ℝ) (YtAYU YtBY : Sq p) (l : Lin N p) : Option Linmin.Out :=
  let r := opB a e it 5 (sD a) (sBD a) 1 l.r
  let dScale := Real.sqrt (trXtY (r (sBD a)) (r (sD a)) / p)
  if dScale = 0 then none
  else
    let r := put r (sD a) (((1 / dScale : ℝ) : ℂ) • r (sD a))
    let r := if a.B.isSome then put r (sBD a) (((1 / dScale : ℝ) : ℂ) • r (sBD a)) else r
    let r := opA a e it 6 (sD a) 1 2 r
    let d := dataOf (r 0) (r (sD a)) (r (sBD a)) (r 1) YtAYU YtBY
    let dE := slopeOf d YtAYU l.U
    let theta := Linmin.thetaGuess dE (curvatureOf d YtAYU l.U) l.prevTheta
    some (Linmin.linmin (Linmin.solverPar a.tol dE) (fun t => (traceFunc e.inv d t).getD (0, 0)) (e.evals + 1) theta E dE e.work)

/-- The iteration that starts in the state `s` is still in its line search after the granted number of evaluations. -/
def Spec.Searching (a : Args N p) (e : Env N p) (s : St N p) : Prop :=
  ∃ r YtBY U tr d l, prepare a e s = .ok r YtBY U tr ∧
    let t := evalTrace a e s.iter U r
    let E := t.2.trace.re
    let hist := fun i => if i = s.iter % histSize then 200 * |E - s.prevE| / (|E| + |s.prevE|) else s.hist i
    ¬ Converged a.tol s.iter E s.prevE ∧ direction a e s hist tr YtBY U t.2 t.1 = some d ∧
    (let useLinmin := if a.fl.forceApprox then false else s.useLinmin
     let l0 : Lin N p := ⟨d.r, U, 0, s.prevTheta, useLinmin, s.forceExact, 1, s.improvement⟩
     (if useLinmin then some l0 else approxMin a e s.iter E s.prevE l0) = some l) ∧
    l.useLinmin = true ∧ searchOut a e s.iter E t.2 YtBY l = some .running

/-- The states at the top of the loop of a run, eigensolver.c:277-299, with the number of iterations and restarts before. -/
inductive Spec.Reach (a : Args N p) (e : Env N p) (Y : M N p) (work : ℕ → M N p) : ℕ → St N p → Prop
  | start {s} : begin a e (initial a Y work) = some s → Reach a e Y work 0 s
  | next {n s s' E} : Reach a e Y work n s → step a e s = .next s' E → s'.iter < maxIterations → Reach a e Y work (n + 1) s'
  | restart {n s s' s''} : Reach a e Y work n s → step a e s = .restart s' → begin a e s' = some s'' → Reach a e Y work (n + 1) s''

theorem exactMin_out {a : Args N p} {e : Env N p} {it : ℕ} {E : ℝ} {YtAYU YtBY : Sq p} {l : Lin N p} :
    (exactMin a e it E YtAYU YtBY l).isSome ↔ ∃ x f g t, searchOut a e it E YtAYU YtBY l = some (.done x f g t) := by
  unfold exactMin searchOut
  simp only
  split_ifs
  · simp
  all_goals
    generalize Linmin.linmin _ _ _ _ _ _ _ = o
    cases o <;> simp

/-- An iteration whose line search is still running is the outcome `fail` of the model. -/
theorem searching_fail {a : Args N p} {e : Env N p} {s : St N p} (h : Spec.Searching a e s) : step a e s = .fail := by
  obtain ⟨r, YtBY, U, tr, d, l, h1, h2, h3, h4, h5, h6⟩ := h
  have hn : exactMin a e s.iter (evalTrace a e s.iter U r).2.trace.re (evalTrace a e s.iter U r).2 YtBY l = none := by
    rw [← Option.not_isSome_iff_eq_none, exactMin_out]
    rintro ⟨x, f, g, t, ht⟩
    rw [h6] at ht
    cases ht
  unfold step
  simp only [h1]
  rw [if_neg h2, h3]
  simp only
  unfold lineMin
  simp only at h4
  simp only [h4, Option.bind_some, h5, if_true, hn]

/-! ## The search of one iteration -/

/-- The normalised search direction, eigensolver.c:646-660. -/
noncomputable def unitDir (a : Args N p) (l : Lin N p) : M N p :=
  ((1 / Real.sqrt (trXtY (Bm a * l.r (sD a)) (l.r (sD a)) / (p : ℝ)) : ℝ) : ℂ) • l.r (sD a)

theorem searchOut_eq {a : Args N p} {e : Env N p} (g : Good a) (it : ℕ) {YtAYU YtBY : Sq p} {l : Lin N p}
    (hsc : cg a = true ∨ a.scratch = false) (hb : YtBY = (l.r 0)ᴴ * Bm a * l.r 0) (hpos : YtBY.PosDef) (hU : l.U = YtBY⁻¹)
    (hA : YtAYU = (l.r 0)ᴴ * a.A * l.r 0 * l.U) :
    searchOut a e it YtAYU.trace.re YtAYU YtBY l =
      let d := traceData a.A (Bm a) 0 (l.r 0) (unitDir a l) 0 0
      let U := d.YtBY⁻¹
      if Real.sqrt (trXtY (Bm a * l.r (sD a)) (l.r (sD a)) / (p : ℝ)) = 0 then none
      else some (Linmin.linmin (Linmin.solverPar a.tol (newtonDE d U)) (fun t => (traceFunc e.inv d t).getD (0, 0)) (e.evals + 1)
        (Linmin.thetaGuess (newtonDE d U) (newtonD2E d U) l.prevTheta) (traceE d U) (newtonDE d U) e.work) := by
  obtain ⟨s1, s2, s3⟩ := sD_cases a
  have hdet : IsUnit YtBY.det := (Matrix.isUnit_iff_isUnit_det _).1 hpos.isUnit
  -- the bundles after `BD`
  have hB1 : opB a e it 5 (sD a) (sBD a) 1 l.r 0 = l.r 0 ∧ opB a e it 5 (sD a) (sBD a) 1 l.r (sD a) = l.r (sD a) ∧
      opB a e it 5 (sD a) (sBD a) 1 l.r (sBD a) = Bm a * l.r (sD a) := by
    unfold opB Bm sBD
    cases hB : a.B with
    | none => simp
    | some B =>
      rw [sBY_some hB]
      have hs3 : sD a ≠ 3 := s3 (by rw [hB]; rfl)
      simp only [Option.isSome_some, if_true, Option.getD_some]
      exact ⟨by rw [put_ne _ _ (by decide), spoil_ne _ _ _ _ _ (by decide)], by rw [put_ne _ _ hs3, spoil_ne _ _ _ _ _ (by omega)], put_same _ _ _⟩
  unfold searchOut unitDir
  simp only
  generalize opB a e it 5 (sD a) (sBD a) 1 l.r = r1 at hB1 ⊢
  obtain ⟨b0, bD, bBD⟩ := hB1
  by_cases hz : Real.sqrt (trXtY (r1 (sBD a)) (r1 (sD a)) / (p : ℝ)) = 0
  · rw [if_pos hz]
    rw [bBD, bD] at hz
    rw [if_pos hz]
  · rw [if_neg hz]
    rw [bBD, bD] at hz ⊢
    rw [if_neg hz, ← bD]
    generalize Real.sqrt (trXtY (Bm a * r1 (sD a)) (r1 (sD a)) / (p : ℝ)) = dS
    rw [bD]
    set D' : M N p := ((1 / dS : ℝ) : ℂ) • l.r (sD a) with hD'
    -- after the normalisation
    have hN : ∃ r3, (if a.B.isSome = true then put (put r1 (sD a) D') (sBD a)
          (((1 / dS : ℝ) : ℂ) • put r1 (sD a) D' (sBD a)) else put r1 (sD a) D') = r3 ∧
        r3 0 = l.r 0 ∧ r3 (sD a) = D' ∧ r3 (sBD a) = Bm a * D' := by
      refine ⟨_, rfl, ?_⟩
      cases hB : a.B with
      | none =>
        have hBm : Bm a = 1 := by simp [Bm, hB]
        have hsb : sBD a = sD a := by simp [sBD, hB]
        simp only [Option.isSome_none, Bool.false_eq_true, if_false]
        rw [hsb, put_ne _ _ (by omega), put_same, b0, hBm, Matrix.one_mul]
        exact ⟨rfl, rfl, rfl⟩
      | some B =>
        have hsb : sBD a = 3 := by simp [sBD, hB, sBY]
        have hs3 : sD a ≠ 3 := s3 (by rw [hB]; rfl)
        simp only [Option.isSome_some, if_true]
        rw [hsb] at bBD ⊢
        refine ⟨?_, ?_, ?_⟩
        · rw [put_ne _ _ (by decide), put_ne _ _ (by omega), b0]
        · rw [put_ne _ _ hs3, put_same]
        · rw [put_same, put_ne _ _ (Ne.symm hs3), bBD, hD', Matrix.mul_smul]
    obtain ⟨r3, hr3, n0, nD, nBD⟩ := hN
    rw [hr3]
    -- after `A(D, G, Adata, 0, X)`
    have hO : opA a e it 6 (sD a) 1 2 r3 0 = l.r 0 ∧ opA a e it 6 (sD a) 1 2 r3 1 = a.A * D' ∧ opA a e it 6 (sD a) 1 2 r3 (sD a) = D' ∧
        opA a e it 6 (sD a) 1 2 r3 (sBD a) = Bm a * D' := by
      have hsD : opA a e it 6 (sD a) 1 2 r3 (sD a) = D' := by
        rcases hsc with hc | hc
        · have := s1 hc
          rw [opA_ne _ _ _ _ _ _ _ _ (by omega) (by omega), nD]
        · unfold opA spoil
          rw [if_neg (by simp [hc]), put_ne _ _ (by omega), nD]
      refine ⟨by rw [opA_ne _ _ _ _ _ _ _ _ (by decide) (by decide), n0], by rw [opA_dst, nD], hsD, ?_⟩
      cases hB : a.B with
      | none =>
        have hBm : Bm a = 1 := by simp [Bm, hB]
        have hsb : sBD a = sD a := by simp [sBD, hB]
        rw [hsb, hsD, hBm, Matrix.one_mul]
      | some B =>
        have hsb : sBD a = 3 := by simp [sBD, hB, sBY]
        rw [hsb] at nBD ⊢
        rw [opA_ne _ _ _ _ _ _ _ _ (by decide) (by decide), nBD]
    generalize opA a e it 6 (sD a) 1 2 r3 = r4 at hO ⊢
    obtain ⟨o0, o1, oD, oBD⟩ := hO
    rw [o0, o1, oD, oBD]
    -- the data for the line search
    set d := dataOf (l.r 0) D' (Bm a * D') (a.A * D') YtAYU YtBY with hd
    have hYtAY : YtAYU * YtBYᴴ = (l.r 0)ᴴ * (a.A * l.r 0) := by
      rw [hA, hpos.isHermitian.eq, hU, Matrix.mul_assoc, Matrix.nonsing_inv_mul _ hdet, Matrix.mul_one, Matrix.mul_assoc]
    have hdd : d = traceData a.A (Bm a) 0 (l.r 0) D' 0 0 := by
      rw [hd]
      unfold dataOf traceData
      rw [hYtAY, hb]
      simp [Matrix.mul_assoc]
    have hUd : d.YtBY⁻¹ = l.U := by rw [hU]; rfl
    have hAd : d.YtAY * d.YtBY⁻¹ = YtAYU := by
      rw [hUd, hA]
      show YtAYU * YtBYᴴ * l.U = _
      rw [hYtAY]
      simp only [Matrix.mul_assoc]
    have hsl : slopeOf d YtAYU l.U = newtonDE d d.YtBY⁻¹ := by
      unfold slopeOf newtonDE
      simp only
      rw [hAd, hUd]
      simp [hd, dataOf]
    have hcu : curvatureOf d YtAYU l.U = newtonD2E d d.YtBY⁻¹ := by
      unfold curvatureOf newtonD2E
      simp only
      rw [hAd, hUd]
      simp [hd, dataOf]
    have hE : YtAYU.trace.re = traceE d d.YtBY⁻¹ := by
      unfold traceE
      rw [hAd]
      simp [hd, dataOf]
    rw [hsl, hcu, hE, hdd]

/-! ## More evaluations do not change a search that has ended -/

theorem linmin_loop_stable (P : Linmin.Par) (φ : ℝ → ℝ × ℝ) : ∀ n x f g t w, Linmin.loop P φ n x f g t w ≠ .running →
    Linmin.loop P φ (n + 1) x f g t w = Linmin.loop P φ n x f g t w := by
  intro n
  induction n with
  | zero => intro x f g t w h; exact absurd rfl h
  | succ n ih =>
    intro x f g t w h
    rw [Linmin.loop] at h ⊢
    rw [Linmin.loop]
    by_cases ht : t = .fg
    · rw [if_pos ht] at h
      rw [if_pos ht, if_pos ht]
      cases hd : Linmin.dcsrch P t x (φ x).1 (φ x).2 w with
      | none => rfl
      | some q =>
        rw [hd] at h
        exact ih _ _ _ _ _ h
    · rw [if_neg ht, if_neg ht]

theorem linminDown_stable (P : Linmin.Par) (φ : ℝ → ℝ × ℝ) (n : ℕ) (x f g : ℝ) (w : Linmin.Saved) (h : Linmin.linminDown P φ n x f g w ≠ .running) :
    Linmin.linminDown P φ (n + 1) x f g w = Linmin.linminDown P φ n x f g w := by
  unfold Linmin.linminDown at h ⊢
  cases hd : Linmin.dcsrch P .start x f g w with
  | none => rfl
  | some q =>
    rw [hd] at h
    exact linmin_loop_stable P φ n _ _ _ _ _ h

theorem linmin_stable (P : Linmin.Par) (φ : ℝ → ℝ × ℝ) (n : ℕ) (x f g : ℝ) (w : Linmin.Saved) (h : Linmin.linmin P φ n x f g w ≠ .running) :
    Linmin.linmin P φ (n + 1) x f g w = Linmin.linmin P φ n x f g w := by
  unfold Linmin.linmin at h ⊢
  by_cases h1 : g > 0
  · rw [if_pos h1] at h
    rw [if_pos h1, if_pos h1, linminDown_stable]
    intro hc
    rw [hc] at h
    exact h rfl
  · rw [if_neg h1] at h
    rw [if_neg h1, if_neg h1]
    by_cases h2 : g = 0
    · rw [if_pos h2, if_pos h2]
    · rw [if_neg h2] at h
      rw [if_neg h2, if_neg h2, linminDown_stable _ _ _ _ _ _ _ h]

theorem exactMin_grant {a : Args N p} {e : Env N p} {k k' it : ℕ} {E : ℝ} {YtAYU YtBY : Sq p} {l : Lin N p}
    (h : searchOut a (Spec.grant e k) it E YtAYU YtBY l = searchOut a (Spec.grant e k') it E YtAYU YtBY l) :
    exactMin a (Spec.grant e k) it E YtAYU YtBY l = exactMin a (Spec.grant e k') it E YtAYU YtBY l := by
  have o1 : ∀ k, opB a (Spec.grant e k) = opB a e := fun k => rfl
  have o2 : ∀ k, opA a (Spec.grant e k) = opA a e := fun k => rfl
  unfold searchOut at h
  unfold exactMin
  simp only [o1, o2] at h ⊢
  split_ifs at h ⊢ <;> first | rfl | skip
  all_goals
    simp only [Option.some.injEq] at h
    rw [h]

/-- What an exact line minimisation that ends does to the block. -/
theorem exactMin_moved {a : Args N p} {e : Env N p} {it : ℕ} {E : ℝ} {YtAYU YtBY : Sq p} {l l' : Lin N p}
    (h : exactMin a e it E YtAYU YtBY l = some l') :
    ∃ D' : M N p, l'.r 0 = ((Real.cos l'.theta : ℝ) : ℂ) • l.r 0 + ((Real.sin l'.theta : ℝ) : ℂ) • D' := by
  obtain ⟨s1, s2, s3⟩ := sD_cases a
  have hb0 : sBD a ≠ 0 := by
    unfold sBD sBY
    split_ifs <;> omega
  have hB1 : opB a e it 5 (sD a) (sBD a) 1 l.r 0 = l.r 0 := by
    unfold opB
    cases hB : a.B with
    | none => rfl
    | some B => simp only; rw [put_ne _ _ (Ne.symm hb0), spoil_ne _ _ _ _ _ (by decide)]
  unfold exactMin at h
  simp only at h
  generalize opB a e it 5 (sD a) (sBD a) 1 l.r = r1 at h hB1
  split_ifs at h with hz hB
  all_goals
    split at h
    · simp only [Option.some.injEq] at h
      subst h
      simp only
      rw [put_same, opA_ne _ _ _ _ _ _ _ _ (by decide) (by decide)]
      refine ⟨_, congrArg₂ _ (congrArg _ ?_) rfl⟩
      first
        | rw [put_ne _ _ (Ne.symm hb0), put_ne _ _ (by omega), hB1]
        | rw [put_ne _ _ (by omega), hB1]
    · cases h

theorem grant_ok {e : Env N p} (he : EnvOK e) (k : ℕ) : EnvOK (Spec.grant e k) := ⟨he.inv, he.sqrtm, he.heev⟩

theorem grant_exact {a : Args N p} {e : Env N p} (hx : Exact a e) (k : ℕ) : Exact a (Spec.grant e k) := ⟨hx.force, hx.noApprox, hx.noOrtho, hx.scratch⟩

/-- A block of independent columns does not cause an emergency restart. -/
theorem no_restart {a : Args N p} {e : Env N p} (g : Good a) (he : EnvOK e) {s s' : St N p} (hi : Function.Injective (s.r 0).mulVec) :
    step a e s ≠ .restart s' := by
  intro h
  have hBH := (Bm_posDef g).isHermitian
  have hm : (measure a e s.iter 0 s.r).2.PosDef := by
    obtain ⟨h0, h1, -⟩ := opB_spec a e s.iter 0 s.r
    unfold measure
    simp only
    rw [h1, h0]
    have hpd : ((s.r 0)ᴴ * (Bm a * s.r 0)).PosDef := by
      have := moved_posDef (Bm_posDef g) hi
      rwa [Matrix.mul_assoc] at this
    haveI : Nonempty (Fin p) := ⟨⟨0, g.hp⟩⟩
    have ht : 0 < ((s.r 0)ᴴ * (Bm a * s.r 0)).trace.re := (Complex.lt_def.1 hpd.trace_pos).1
    have hp : (0 : ℝ) < p := by exact_mod_cast g.hp
    have hy : 0 < Real.sqrt (((s.r 0)ᴴ * (Bm a * s.r 0)).trace.re / p) := Real.sqrt_pos.mpr (div_pos ht hp)
    refine hpd.smul ?_
    have : (0 : ℝ) < 1 / (Real.sqrt (((s.r 0)ᴴ * (Bm a * s.r 0)).trace.re / p) * Real.sqrt (((s.r 0)ᴴ * (Bm a * s.r 0)).trace.re / p)) := by
      positivity
    exact_mod_cast this
  have hinv := (he.inv _ hm.isHermitian).1 hm
  unfold step at h
  simp only at h
  split at h
  · cases h
  · rename_i r hp
    unfold prepare at hp
    simp only [hinv] at hp
    split_ifs at hp
    split at hp <;> cases hp
  · rename_i r YtBY U tr hp
    by_cases hc : Converged a.tol s.iter (evalTrace a e s.iter U r).2.trace.re s.prevE
    · rw [if_pos hc] at h; cases h
    rw [if_neg hc] at h
    split at h
    · cases h
    · split at h <;> cases h

/-- The trace of a positive semidefinite operator is not negative. -/
theorem rayleigh_nonneg {a : Args N p} {e : Env N p} (g : Good a) (he : EnvOK e) (hA : a.A.PosSemidef) {Y : M N p}
    (hi : Function.Injective Y.mulVec) : 0 ≤ Spec.rayleigh a.A (Bm a) Y := by
  have hpd := (moved_posDef (Bm_posDef g) hi).inv
  obtain ⟨h1, h2⟩ := he.sqrtm _ hpd
  unfold Spec.rayleigh
  rw [← h2, ← Matrix.mul_assoc, Matrix.trace_mul_comm, ← Matrix.mul_assoc]
  have hP : (Yᴴ * a.A * Y).PosSemidef := hA.conjTranspose_mul_mul_same Y
  have := hP.conjTranspose_mul_mul_same (e.sqrtm (Yᴴ * Bm a * Y)⁻¹)
  rw [h1.eq] at this
  exact trace_re_nonneg this

/-! ## The invariant -/

/-- In addition to the invariant of the exact mode: if the previous angle is zero, the block has not moved. -/
structure EndInv (a : Args N p) (s : St N p) : Prop where
  inv : Inv a s
  zero : s.prevTheta = 0 → 0 < s.iter ∧ Function.Injective (s.r 0).mulVec ∧ Spec.rayleigh a.A (Bm a) (s.r 0) = s.prevE

theorem step_zero {a : Args N p} {e : Env N p} (g : Good a) (he : EnvOK e) (hx : Exact a e) {s s' : St N p} {E : ℝ} (I : Inv a s)
    (h : step a e s = .next s' E) (hz : s'.prevTheta = 0) : Function.Injective (s'.r 0).mulVec ∧ Spec.rayleigh a.A (Bm a) (s'.r 0) = E := by
  unfold step at h
  simp only at h
  split at h
  · cases h
  · split_ifs at h
  · rename_i r YtBY U tr hp
    have P := prepare_spec g he s hp
    obtain ⟨t1, t2, t3, t4, t5⟩ := prepared_trace (e := e) g P s.iter
    obtain ⟨e1, e2⟩ := evalTrace_spec a e s.iter U r t5
    obtain ⟨s1, s2, s3⟩ := sD_cases a
    obtain ⟨S, -, eS⟩ := P.unit
    have hb : sBY a ≠ 1 ∧ sBY a ≠ 2 := by unfold sBY; split_ifs <;> decide
    have hY : Constrained a (r 0) := by rw [eS]; exact constrained_mul I.hY S
    have hD : cg a = true → Constrained a (r (sD a)) := by
      intro hc
      have h3 := s1 hc
      rw [P.frame _ (by omega) (by omega) ?_]
      · exact I.hD hc
      · unfold sBY
        split_ifs with hB
        · exact s3 hB
        · omega
    by_cases hc : Converged a.tol s.iter (evalTrace a e s.iter U r).2.trace.re s.prevE
    · rw [if_pos hc] at h; cases h
    rw [if_neg hc] at h
    split at h
    · cases h
    · rename_i d hd
      obtain ⟨d1, d2⟩ := direction_spec a e g s _ _ _ _ _ _ hx.noOrtho (by rw [e2 _ hb.1 hb.2, e2 _ (by decide) (by decide), P.by_])
        (by rw [e2 _ (by decide) (by decide)]; exact hY)
        (fun hc => by have := s1 hc; rw [e2 _ (by omega) (by omega)]; exact hD hc) hd
      rw [e2 _ (by decide) (by decide)] at d1
      split at h
      · cases h
      · rename_i l hl
        simp only [Out.next.injEq] at h
        obtain ⟨rfl, rfl⟩ := h
        unfold lineMin at hl
        simp only [hx.noApprox, I.linmin, if_true, Bool.false_eq_true, if_false, Option.bind_some] at hl
        obtain ⟨x1, x2, x3, x4, x5, x6⟩ := exactMin_spec (l := ⟨d.r, U, 0, s.prevTheta, true, s.forceExact, 1, s.improvement⟩) g he s.iter hx.scratch
          (by simp only; rw [d1]; exact P.over) P.pos P.inv (by simp only; rw [d1]; exact e1) I.theta d2 (by simp only; rw [d1]; exact hY) hl
        obtain ⟨D', hmv⟩ := exactMin_moved hl
        have hcon : (constrain a 0 l.r) = l.r := (constrain_spec a g 0 l.r).2.1 x1
        have hap : ¬ (l.forceExact = false ∧ l.improvement > 0 ∧ l.improvement ≤ 0.05 ∧ e.tExact s.iter > e.tApprox s.iter * 2) := by
          rintro ⟨y1, -, -, y4⟩
          rcases hx.force with hf | hf
          · rw [x5] at y1
            simp only at y1
            rw [I.force, hf] at y1
            cases y1
          · exact absurd (hf s.iter) (not_le.2 y4)
        simp only [finishIter, hap, decide_false, Bool.false_eq_true, if_false, hx.noApprox, Real.arctan_eq_zero_iff] at hz
        rw [hz] at hmv
        simp only [Real.cos_zero, Real.sin_zero, Complex.ofReal_one, Complex.ofReal_zero, one_smul, zero_smul, add_zero, d1] at hmv
        simp only [finishIter]
        rw [hcon, hmv, t2, t1]
        exact ⟨t4, rfl⟩

theorem reach_inv {a : Args N p} {e : Env N p} (g : Good a) (he : EnvOK e) (hx : Exact a e) {Y : M N p} {work : ℕ → M N p} {n : ℕ} {s : St N p}
    (h : Spec.Reach a e Y work n s) : EndInv a s ∧ s.iter + s.restarts = n ∧ s.iter < maxIterations ∧ s.restarts < 10000 := by
  have hmax : maxIterations = 100000 := rfl
  induction h with
  | start hb =>
    obtain ⟨b1, b2, b3, b4, b5, b6, b7, b8⟩ := begin_spec g hb
    refine ⟨⟨⟨b1, fun hc => by
        rw [b8 hc]
        intro C hC
        have := (sD_cases a).1 hc
        simp only [initial]
        rw [if_neg (by omega), if_pos (Or.inl ⟨hc, trivial⟩), Matrix.mul_zero],
      by rw [b5]; simp only [initial]; rw [abs_of_pos (by norm_num)]; linarith [Real.pi_gt_three], by rw [b7]; rfl, by rw [b6]; rfl⟩, fun hz => ?_⟩,
      by rw [b2, b3]; rfl, by rw [b2]; simp [initial, maxIterations], by rw [b3]; simp [initial]⟩
    rw [b5] at hz
    norm_num [initial] at hz
  | @next n s s' E h1 hs hlt ih =>
    obtain ⟨I, i1, i2, i3⟩ := ih
    obtain ⟨n1, n2, n3, n4, n5, n6⟩ := step_next g he hs
    obtain ⟨I', -⟩ := step_exact g he hx I.inv hs
    refine ⟨⟨I', fun hz => ?_⟩, by omega, hlt, by omega⟩
    obtain ⟨z1, z2⟩ := step_zero g he hx I.inv hs hz
    exact ⟨by omega, z1, by rw [z2, n4]⟩
  | @restart n s s' s'' h1 hs hb ih =>
    obtain ⟨I, i1, i2, i3⟩ := ih
    obtain ⟨r1, r2, r3, r4, r5, r6, r7, r8⟩ := step_restart hs
    obtain ⟨b1, b2, b3, b4, b5, b6, b7, b8⟩ := begin_spec g hb
    refine ⟨⟨⟨b1, fun hc => by rw [b8 hc, r8 hc]; exact I.inv.hD hc, by rw [b5, r5]; exact I.inv.theta, by rw [b7, r7 hx.noApprox]; exact I.inv.linmin,
      by rw [b6, r6]; exact I.inv.force⟩, fun hz => ?_⟩, by omega, by omega, by omega⟩
    rw [b5, r5] at hz
    exact absurd hs (no_restart g he (I.zero hz).2.1)

/-- The iteration from a state of the invariant ends, and more evaluations do not change what it does. -/
theorem state_ends {a : Args N p} {e : Env N p} (g : Good a) (he : EnvOK e) (hx : Exact a e) (hA : a.A.PosSemidef) (htol : 0 < a.tol) {s : St N p}
    (J : EndInv a s) : ∃ K, ∀ k ≥ K, ¬ Spec.Searching a (Spec.grant e k) s ∧ step a (Spec.grant e k) s = step a (Spec.grant e K) s := by
  have I := J.inv
  have v1 : ∀ k, evalTrace a (Spec.grant e k) = evalTrace a e := fun _ => rfl
  have v2 : ∀ k, direction a (Spec.grant e k) = direction a e := fun _ => rfl
  have v3 : ∀ k, finishIter a (Spec.grant e k) = finishIter a e := fun _ => rfl
  cases hp : prepare a e s with
  | fail =>
    have hp' : ∀ k, prepare a (Spec.grant e k) s = .fail := fun _ => hp
    refine ⟨0, fun k _ => ⟨?_, ?_⟩⟩
    · rintro ⟨r, YtBY, U, tr, d, l, h, -⟩
      rw [hp' k] at h
      cases h
    · unfold step
      simp only [hp']
  | restart r =>
    have hp' : ∀ k, prepare a (Spec.grant e k) s = .restart r := fun _ => hp
    refine ⟨0, fun k _ => ⟨?_, ?_⟩⟩
    · rintro ⟨r, YtBY, U, tr, d, l, h, -⟩
      rw [hp' k] at h
      cases h
    · unfold step
      simp only [hp']
      rfl
  | ok r YtBY U tr =>
    have hp' : ∀ k, prepare a (Spec.grant e k) s = .ok r YtBY U tr := fun _ => hp
    have P := prepare_spec g he s hp
    obtain ⟨t1, t2, t3, t4, t5⟩ := prepared_trace (e := e) g P s.iter
    obtain ⟨e1, e2⟩ := evalTrace_spec a e s.iter U r t5
    obtain ⟨s1, s2, s3⟩ := sD_cases a
    obtain ⟨S, -, eS⟩ := P.unit
    have hb : sBY a ≠ 1 ∧ sBY a ≠ 2 := by unfold sBY; split_ifs <;> decide
    have hY : Constrained a (r 0) := by rw [eS]; exact constrained_mul I.hY S
    have hD : cg a = true → Constrained a (r (sD a)) := by
      intro hc
      have h3 := s1 hc
      rw [P.frame _ (by omega) (by omega) ?_]
      · exact I.hD hc
      · unfold sBY
        split_ifs with hB
        · exact s3 hB
        · omega
    by_cases hc : Converged a.tol s.iter (evalTrace a e s.iter U r).2.trace.re s.prevE
    · refine ⟨0, fun k _ => ⟨?_, ?_⟩⟩
      · rintro ⟨r, YtBY, U, tr, d, l, h, h2, -⟩
        rw [hp' k] at h
        cases h
        exact h2 hc
      · unfold step
        simp only [hp']
        have hc' : ∀ k, Converged a.tol s.iter (evalTrace a (Spec.grant e k) s.iter U r).2.trace.re s.prevE := fun _ => hc
        rw [if_pos (hc' k), if_pos (hc' 0)]
        rfl
    have hc' : ∀ k, ¬ Converged a.tol s.iter (evalTrace a (Spec.grant e k) s.iter U r).2.trace.re s.prevE := fun _ => hc
    have hth : s.prevTheta ≠ 0 := by
      intro hz
      obtain ⟨z1, z2, z3⟩ := J.zero hz
      apply hc
      have h0 := rayleigh_nonneg g he hA z2
      refine ⟨z1, ?_⟩
      rw [t1, z3, sub_self, abs_zero]
      rw [z3] at h0
      have : (0 : ℝ) < s.prevE + s.prevE + 1 / 10 ^ 7 := by positivity
      positivity
    cases hd : direction a e s (fun i => if i = s.iter % histSize then 200 * |(evalTrace a e s.iter U r).2.trace.re - s.prevE| /
        (|(evalTrace a e s.iter U r).2.trace.re| + |s.prevE|) else s.hist i) tr YtBY U (evalTrace a e s.iter U r).2 (evalTrace a e s.iter U r).1 with
    | none =>
      refine ⟨0, fun k _ => ⟨?_, ?_⟩⟩
      · rintro ⟨r, YtBY, U, tr, d, l, h, -, h2, -⟩
        rw [hp' k] at h
        cases h
        simp only [v1, v2] at h2
        rw [hd] at h2
        cases h2
      · unfold step
        simp only [hp']
        rw [if_neg (hc' k), if_neg (hc' 0)]
        simp only [v1, v2]
        rw [hd]
    | some d =>
      obtain ⟨d1, d2⟩ := direction_spec a e g s _ _ _ _ _ _ hx.noOrtho (by rw [e2 _ hb.1 hb.2, e2 _ (by decide) (by decide), P.by_])
        (by rw [e2 _ (by decide) (by decide)]; exact hY)
        (fun hc => by have := s1 hc; rw [e2 _ (by omega) (by omega)]; exact hD hc) hd
      rw [e2 _ (by decide) (by decide)] at d1
      set l0 : Lin N p := ⟨d.r, U, 0, s.prevTheta, true, s.forceExact, 1, s.improvement⟩ with hl0
      have hout := fun k => searchOut_eq (e := Spec.grant e k) (l := l0) (YtAYU := (evalTrace a e s.iter U r).2) (YtBY := YtBY) g s.iter hx.scratch
        (by simp only [hl0]; rw [d1]; exact P.over) P.pos P.inv (by simp only [hl0]; rw [d1]; exact e1)
      have hYi : Function.Injective (l0.r 0).mulVec := by simp only [hl0]; rw [d1]; exact t4
      have hend : ∃ K, ∀ k ≥ K, searchOut a (Spec.grant e k) s.iter (evalTrace a e s.iter U r).2.trace.re (evalTrace a e s.iter U r).2 YtBY l0 ≠ some .running ∧
          searchOut a (Spec.grant e k) s.iter (evalTrace a e s.iter U r).2.trace.re (evalTrace a e s.iter U r).2 YtBY l0 =
          searchOut a (Spec.grant e K) s.iter (evalTrace a e s.iter U r).2.trace.re (evalTrace a e s.iter U r).2 YtBY l0 := by
        obtain ⟨K, hK⟩ := C122_eigensolver_partial g.hA (Bm_posDef g) 0 (l0.r 0) (unitDir a l0) l0.prevTheta a.tol e.work he.inv hYi hth
        refine ⟨K, fun k hk => ?_⟩
        rw [hout k, hout K]
        simp only
        by_cases hz : Real.sqrt (trXtY (Bm a * l0.r (sD a)) (l0.r (sD a)) / (p : ℝ)) = 0
        · rw [if_pos hz, if_pos hz]
          simp
        · rw [if_neg hz, if_neg hz]
          constructor
          · intro h
            exact hK (k + 1) (by omega) (Option.some.inj h)
          · congr 1
            obtain ⟨j, rfl⟩ := Nat.exists_eq_add_of_le hk
            clear hk
            induction j with
            | zero => rfl
            | succ j ih => exact (linmin_stable _ _ (K + j + 1) _ _ _ _ (hK (K + j + 1) (by omega))).trans ih
      obtain ⟨K, hK⟩ := hend
      refine ⟨K, fun k hk => ⟨?_, ?_⟩⟩
      · rintro ⟨r, YtBY, U, tr, d', l, h, h2, h3, h4, h5, h6⟩
        rw [hp' k] at h
        cases h
        simp only [v1, v2] at h3 h6
        rw [hd] at h3
        cases h3
        simp only [hx.noApprox, I.linmin, if_true, Bool.false_eq_true, if_false, Option.some.injEq] at h4
        subst h4
        exact (hK k hk).1 h6
      · have hm := exactMin_grant (hK k hk).2
        unfold step
        simp only [hp']
        rw [if_neg (hc' k), if_neg (hc' K)]
        simp only [v1, v2, v3]
        rw [hd]
        simp only
        unfold lineMin
        simp only [hx.noApprox, I.linmin, if_true, Bool.false_eq_true, if_false, Option.bind_some]
        rw [hm]

/-- The state after `n` iterations and restarts does not depend on the number of evaluations granted, if that is large enough. -/
theorem reach_det {a : Args N p} {e : Env N p} (g : Good a) (he : EnvOK e) (hx : Exact a e) (hA : a.A.PosSemidef) (htol : 0 < a.tol) (Y : M N p)
    (work : ℕ → M N p) : ∀ n, ∃ K, ∃ o : Option (St N p), ∀ k ≥ K, ∀ s, Spec.Reach a (Spec.grant e k) Y work n s ↔ o = some s := by
  intro n
  induction n with
  | zero =>
    refine ⟨0, begin a e (initial a Y work), fun k _ s => ⟨fun h => ?_, fun h => .start h⟩⟩
    cases h with
    | start h => exact h
  | succ n ih =>
    obtain ⟨K, o, hK⟩ := ih
    cases o with
    | none =>
      refine ⟨K, none, fun k hk s => ⟨fun h => ?_, fun h => by cases h⟩⟩
      cases h with
      | next h _ _ => exact absurd ((hK k hk _).mp h) (by simp)
      | restart h _ _ => exact absurd ((hK k hk _).mp h) (by simp)
    | some s0 =>
      have hr := (hK K le_rfl s0).mpr rfl
      obtain ⟨J, -⟩ := reach_inv g (grant_ok he K) (grant_exact hx K) hr
      obtain ⟨K', hK'⟩ := state_ends g he hx hA htol J
      refine ⟨max K K', match step a (Spec.grant e K') s0 with
        | .next s' _ => if s'.iter < maxIterations then some s' else none
        | .restart s' => begin a e s'
        | _ => none, fun k hk s => ?_⟩
      have hk1 : k ≥ K := le_trans (le_max_left _ _) hk
      have hk2 : k ≥ K' := le_trans (le_max_right _ _) hk
      have hst := (hK' k hk2).2
      have hr' := (hK k hk1 s0).mpr rfl
      constructor
      · intro h
        cases h with
        | next h hs hlt =>
          have := Option.some.inj ((hK k hk1 _).mp h)
          subst this
          rw [← hst, hs]
          simp only [if_pos hlt]
        | restart h hs hb =>
          have := Option.some.inj ((hK k hk1 _).mp h)
          subst this
          rw [← hst, hs]
          exact hb
      · rw [← hst]
        intro h
        split at h
        · rename_i s' E hs
          split_ifs at h with hlt
          cases h
          exact .next hr' hs hlt
        · rename_i s' hs
          exact .restart hr' hs h
        · cases h

/-- **C122** (partial, a whole run): in a run of the eigensolver in which every line minimisation is exact, every line search ends: there is
a number of evaluations that is enough for all of them, for every positive semidefinite operator, every positive definite overlap operator, every preconditioner and
constraint, every starting block, every work space and every tolerance greater than zero.  (A previous angle of zero, for which the search
would not end, is never used: it means the block has not moved, and then the iteration converges before its line search.)  With `C74_ends`
the solver returns or aborts.  Missing: runs with approximate line minimisations. -/
theorem C122_run_partial {a : Args N p} {e : Env N p} (g : Good a) (he : EnvOK e) (hx : Exact a e) (hA : a.A.PosSemidef) (htol : 0 < a.tol)
    (Y : M N p) (work : ℕ → M N p) :
    ∃ K, ∀ k ≥ K, ∀ n s, Spec.Reach a (Spec.grant e k) Y work n s → ¬ Spec.Searching a (Spec.grant e k) s := by
  have key : ∀ n, ∃ K, ∀ k ≥ K, ∀ m < n, ∀ s, Spec.Reach a (Spec.grant e k) Y work m s → ¬ Spec.Searching a (Spec.grant e k) s := by
    intro n
    induction n with
    | zero => exact ⟨0, fun k _ m hm => absurd hm (by omega)⟩
    | succ n ih =>
      obtain ⟨K, hK⟩ := ih
      obtain ⟨K1, o, hK1⟩ := reach_det g he hx hA htol Y work n
      cases o with
      | none =>
        refine ⟨max K K1, fun k hk m hm s h => ?_⟩
        rcases Nat.lt_succ_iff_lt_or_eq.mp hm with hlt | rfl
        · exact hK k (le_trans (le_max_left _ _) hk) m hlt s h
        · exact absurd ((hK1 k (le_trans (le_max_right _ _) hk) s).mp h) (by simp)
      | some s0 =>
        obtain ⟨J, -⟩ := reach_inv g (grant_ok he K1) (grant_exact hx K1) ((hK1 K1 le_rfl s0).mpr rfl)
        obtain ⟨K2, hK2⟩ := state_ends g he hx hA htol J
        refine ⟨max K (max K1 K2), fun k hk m hm s h => ?_⟩
        have hk1 : k ≥ K1 := le_trans (le_trans (le_max_left _ _) (le_max_right _ _)) hk
        have hk2 : k ≥ K2 := le_trans (le_trans (le_max_right _ _) (le_max_right _ _)) hk
        rcases Nat.lt_succ_iff_lt_or_eq.mp hm with hlt | rfl
        · exact hK k (le_trans (le_max_left _ _) hk) m hlt s h
        · have := Option.some.inj ((hK1 k hk1 s).mp h)
          subst this
          exact (hK2 k hk2).1
  obtain ⟨K, hK⟩ := key 110000
  refine ⟨K, fun k hk n s h => hK k hk n ?_ s h⟩
  obtain ⟨-, i1, i2, i3⟩ := reach_inv g (grant_ok he k) (grant_exact hx k) h
  have hmax : maxIterations = 100000 := rfl
  omega

/-- Non-vacuity: a diagonal operator, one band, three work arrays and the flag for exact line minimisations. -/
example : Good (args 1 0 2 exactFlags) ∧ EnvOK env1 ∧ Exact (args 1 0 2 exactFlags) env1 ∧ (args 1 0 2 exactFlags).A.PosSemidef ∧
    0 < (args 1 0 2 exactFlags).tol := by
  refine ⟨args_good _ _ _ _, env1_ok, args_exact _ _ _, ?_, by norm_num [args]⟩
  have : (args 1 0 2 exactFlags).A = Matrix.diagonal ![1, 2] := by
    ext i j
    fin_cases i <;> fin_cases j <;> simp [args, sym]
  rw [this]
  refine Matrix.PosSemidef.diagonal ?_
  intro i
  fin_cases i <;> simp

end Mpb.Eig

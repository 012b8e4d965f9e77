import Verif.Eig.Runs

/-!
# C98: the search direction of an iteration of the eigensolver

The gradient, the preconditioned gradient, its combination with the previous direction (Polak-Ribiere, Fletcher-Reeves), the resets.
-/

namespace Mpb.Eig.Spec

open Matrix

variable {N p : ℕ}

/-- The gradient of the trace of the pair `(A, B)` in the space of a block: `(1 - B Y (Y† B Y)⁻¹ Y†) A Y (Y† B Y)⁻¹`. -/
noncomputable def gradient (A B : Matrix (Fin N) (Fin N) ℂ) (Y : Matrix (Fin N) (Fin p) ℂ) : Matrix (Fin N) (Fin p) ℂ :=
  (A * Y - B * Y * (Yᴴ * B * Y)⁻¹ * (Yᴴ * A * Y)) * (Yᴴ * B * Y)⁻¹

/-- The real scalar product of two blocks. -/
noncomputable def dot (X Y : Matrix (Fin N) (Fin p) ℂ) : ℝ := (Xᴴ * Y).trace.re

/-- A block scaled so that its columns have norm one in the mean. -/
noncomputable def scaled (B : Matrix (Fin N) (Fin N) ℂ) (Y : Matrix (Fin N) (Fin p) ℂ) : Matrix (Fin N) (Fin p) ℂ :=
  ((1 / Real.sqrt (dot Y (B * Y) / p) : ℝ) : ℂ) • Y

end Mpb.Eig.Spec

namespace Mpb.Eig

open Matrix Mpb.Solver

open scoped ComplexOrder

variable {N p : ℕ}

/-- The search direction of the last iteration: the slot `D`, which the exact line minimisation has normalised, in its original size. -/
noncomputable def lastDir (a : Args N p) (s : St N p) : M N p := ((s.dScale : ℝ) : ℂ) • s.r (sD a)

/-! ## Slots -/

theorem slots {a : Args N p} (hc : cg a = true) :
    3 ≤ sD a ∧ sD a ≠ sBY a ∧ (a.B.isSome = true → sD a ≠ sBD a) ∧
      (pr a = true → 4 ≤ sPrev a ∧ sPrev a ≠ sD a ∧ sPrev a ≠ sBY a ∧ sPrev a ≠ sBD a) := by
  unfold sBD sPrev sBY sD nB
  rw [if_pos hc]
  refine ⟨by omega, ?_, fun h => ?_, fun h => ?_⟩
  · split_ifs <;> omega
  · rw [if_pos h]; split_ifs; omega
  · rw [if_pos h]; split_ifs <;> omega

/-! ## The line minimisations keep the direction -/

open Classical in
/-- `approxMin` (see there) after the product `BD`. -/
noncomputable def approxFrom (a : Args N p) (e : Env N p) (it : ℕ) (E prevE : ℝ) (l : Lin N p) (r : ℕ → M N p) : Option (Lin N p) :=
  let dNorm := Real.sqrt (trXtY (r (sBD a)) (r (sD a)) / p)
  if dNorm = 0 then none
  else
    let dE := 2 * trXtY (r (sPrev a)) (r (sD a)) / dNorm
    let t := if dE < 0 then -|l.prevTheta| else |l.prevTheta|
    let r := put r 0 (r 0 + ((t / dNorm : ℝ) : ℂ) • r (sD a))
    let r := opB a e it 3 0 (sBY a) 1 r
    match e.inv ((r 0)ᴴ * r (sBY a)) with
    | none => none
    | some U =>
      let r := opA a e it 4 0 1 2 r
      let S1 := (r 0)ᴴ * r 1
      let E2 := (S1ᴴ * U).trace.re
      if t = 0 then none
      else
        let d2E := (E2 - E - dE * t) / (0.5 * t * t)
        if d2E = 0 ∧ (dE = 0 ∨ a.fl.forceApprox = true) then none
        else
          let theta := -dE / d2E
          if d2E < 0 ∨ d2E = 0 ∨ -0.5 * dE * theta > 20 * |E - prevE| then
            if a.fl.forceApprox then some { l with r := r, U := U, theta := theta }
            else
              let r := put r 0 (r 0 + ((-t / dNorm : ℝ) : ℂ) • r (sD a))
              some { l with r := r, U := U, theta := theta, prevTheta := Real.arctan l.prevTheta, useLinmin := true, forceExact := true }
          else some { l with r := put r 0 (r 0 + (((theta - t) / dNorm : ℝ) : ℂ) • r (sD a)), U := U, theta := theta }


theorem approxMin_keeps {a : Args N p} {e : Env N p} {it : ℕ} {E prevE : ℝ} {l l' : Lin N p} (hc : cg a = true)
    (h : approxMin a e it E prevE l = some l') :
    l'.dScale = l.dScale ∧ l'.r (sD a) = l.r (sD a) ∧ (pr a = true → l'.r (sPrev a) = l.r (sPrev a)) := by
  obtain ⟨d1, d2, d3, d4⟩ := slots hc
  have key : ∀ (r' : ℕ → M N p), (∀ k, 3 ≤ k → k ≠ sBY a → (a.B.isSome = true → k ≠ sBD a) → r' k = l.r k) →
      r' (sD a) = l.r (sD a) ∧ (pr a = true → r' (sPrev a) = l.r (sPrev a)) := by
    intro r' hr
    refine ⟨hr _ d1 d2 d3, fun hp => ?_⟩
    obtain ⟨p1, p2, p3, p4⟩ := d4 hp
    exact hr _ (by omega) p3 (fun _ => p4)
  have hB : ∀ (r : ℕ → M N p) k, 3 ≤ k → k ≠ sBY a → opB a e it 3 0 (sBY a) 1 r k = r k := by
    intro r k h1 h2
    unfold opB
    cases hB : a.B with
    | none => rfl
    | some B => simp only; rw [put_ne _ _ h2, spoil_ne _ _ _ _ _ (by omega)]
  have hA : ∀ (r : ℕ → M N p) k, 3 ≤ k → opA a e it 4 0 1 2 r k = r k := fun r k h1 => opA_ne _ _ _ _ _ _ _ _ (by omega) (by omega)
  unfold approxMin at h
  obtain ⟨r0, hr0, h⟩ : ∃ r0 : ℕ → M N p, (∀ k, (a.B.isSome = true → k ≠ sBD a) → r0 k = l.r k) ∧ approxFrom a e it E prevE l r0 = some l' := by
    cases hB : a.B with
    | none =>
      rw [hB] at h
      exact ⟨l.r, fun _ _ => rfl, h⟩
    | some B =>
      rw [hB] at h
      exact ⟨put l.r (sBD a) (B * l.r (sD a)), fun k hk => put_ne _ _ (hk rfl), h⟩
  unfold approxFrom at h
  simp only at h
  generalize Real.sqrt (trXtY (r0 (sBD a)) (r0 (sD a)) / (p : ℝ)) = dN at h
  generalize 2 * trXtY (r0 (sPrev a)) (r0 (sD a)) / dN = dE at h
  generalize (if dE < 0 then -|l.prevTheta| else |l.prevTheta|) = t at h
  split at h
  · cases h
  split at h
  · cases h
  split_ifs at h
  all_goals
    simp only [Option.some.injEq] at h
    subst h
    refine ⟨rfl, key _ fun k k3 kB kD => ?_⟩
    first
      | (simp only; rw [put_ne _ _ (by omega), hA _ _ k3, hB _ _ k3 kB, put_ne _ _ (by omega), hr0 _ kD])
      | (simp only; rw [hA _ _ k3, hB _ _ k3 kB, put_ne _ _ (by omega), hr0 _ kD])

theorem exactMin_keeps {a : Args N p} {e : Env N p} {it : ℕ} {E : ℝ} {YtAYU YtBY : Sq p} {l l' : Lin N p} (hc : cg a = true)
    (h : exactMin a e it E YtAYU YtBY l = some l') :
    ((l'.dScale : ℝ) : ℂ) • l'.r (sD a) = l.r (sD a) ∧ (pr a = true → l'.r (sPrev a) = l.r (sPrev a)) := by
  obtain ⟨d1, d2, d3, d4⟩ := slots hc
  have hB : ∀ k, 3 ≤ k → (a.B.isSome = true → k ≠ sBD a) → opB a e it 5 (sD a) (sBD a) 1 l.r k = l.r k := by
    intro k h1 h2
    unfold opB
    cases hB : a.B with
    | none => rfl
    | some B => simp only; rw [put_ne _ _ (h2 (by rw [hB]; rfl)), spoil_ne _ _ _ _ _ (by omega)]
  have hA : ∀ (r : ℕ → M N p) k, 3 ≤ k → opA a e it 6 (sD a) 1 2 r k = r k := fun r k h1 => opA_ne _ _ _ _ _ _ _ _ (by omega) (by omega)
  unfold exactMin at h
  simp only at h
  generalize opB a e it 5 (sD a) (sBD a) 1 l.r = r1 at h hB
  by_cases hz : Real.sqrt (trXtY (r1 (sBD a)) (r1 (sD a)) / (p : ℝ)) = 0
  · rw [if_pos hz] at h; cases h
  rw [if_neg hz] at h
  generalize Real.sqrt (trXtY (r1 (sBD a)) (r1 (sD a)) / (p : ℝ)) = dS at h hz
  set r3 := (if a.B.isSome = true then put (put r1 (sD a) (((1 / dS : ℝ) : ℂ) • r1 (sD a))) (sBD a)
          (((1 / dS : ℝ) : ℂ) • put r1 (sD a) (((1 / dS : ℝ) : ℂ) • r1 (sD a)) (sBD a)) else put r1 (sD a) (((1 / dS : ℝ) : ℂ) • r1 (sD a))) with hr3
  have h3D : r3 (sD a) = ((1 / dS : ℝ) : ℂ) • l.r (sD a) := by
    rw [hr3]
    split_ifs with hs
    · rw [put_ne _ _ (d3 hs), put_same, hB _ d1 d3]
    · rw [put_same, hB _ d1 d3]
  have h3 : ∀ k, 3 ≤ k → k ≠ sD a → k ≠ sBD a → r3 k = l.r k := by
    intro k k3 kD kB
    rw [hr3]
    split_ifs with hs
    · rw [put_ne _ _ kB, put_ne _ _ kD, hB _ k3 fun _ => kB]
    · rw [put_ne _ _ kD, hB _ k3 fun _ => kB]
  split at h
  · simp only [Option.some.injEq] at h
    subst h
    refine ⟨?_, fun hp => ?_⟩
    · simp only
      rw [put_ne _ _ (by omega), hA _ _ d1, h3D, smul_smul, ← Complex.ofReal_mul, mul_one_div, div_self hz, Complex.ofReal_one, one_smul]
    · obtain ⟨p1, p2, p3, p4⟩ := d4 hp
      simp only
      rw [put_ne _ _ (by omega), hA _ _ (by omega), h3 _ (by omega) p2 p4]
  · cases h

theorem lineMin_keeps {a : Args N p} {e : Env N p} {it : ℕ} {E prevE : ℝ} {YtAYU YtBY : Sq p} {l l' : Lin N p} (hc : cg a = true)
    (h1 : l.dScale = 1) (h : lineMin a e it E prevE YtAYU YtBY l = some l') :
    ((l'.dScale : ℝ) : ℂ) • l'.r (sD a) = l.r (sD a) ∧ (pr a = true → l'.r (sPrev a) = l.r (sPrev a)) := by
  unfold lineMin at h
  obtain ⟨l1, q1, q2⟩ := Option.bind_eq_some_iff.1 h
  have k1 : l1.dScale = 1 ∧ l1.r (sD a) = l.r (sD a) ∧ (pr a = true → l1.r (sPrev a) = l.r (sPrev a)) := by
    split_ifs at q1
    · simp only [Option.some.injEq] at q1
      subst q1
      exact ⟨h1, rfl, fun _ => rfl⟩
    · obtain ⟨x1, x2, x3⟩ := approxMin_keeps hc q1
      exact ⟨x1.trans h1, x2, x3⟩
  obtain ⟨y1, y2, y3⟩ := k1
  split_ifs at q2
  · obtain ⟨x1, x2⟩ := exactMin_keeps hc q2
    exact ⟨x1.trans y2, fun hp => (x2 hp).trans (y3 hp)⟩
  · simp only [Option.some.injEq] at q2
    subst q2
    rw [y1, Complex.ofReal_one, one_smul]
    exact ⟨y2, y3⟩

/-! ## The preparation, with the block it makes -/

theorem measure_block (a : Args N p) (e : Env N p) (it site : ℕ) (r : ℕ → M N p) : (measure a e it site r).1 0 = Spec.scaled (Bm a) (r 0) := by
  obtain ⟨h0, h1, -⟩ := opB_spec a e it site r
  unfold measure Spec.scaled Spec.dot
  simp only
  rw [h1, h0]
  cases hB : a.B with
  | none => simp only [Option.isSome_none, Bool.false_eq_true, if_false]; rw [put_same]
  | some B =>
    simp only [Option.isSome_some, if_true]
    rw [put_ne _ _ (by rw [sBY_some hB]; decide), put_same]

theorem scaled_one {B : Matrix (Fin N) (Fin N) ℂ} {Z : M N p} (hp : 0 < p) (h : Zᴴ * B * Z = 1) : Spec.scaled B Z = Z := by
  unfold Spec.scaled Spec.dot
  rw [← Matrix.mul_assoc, h, Matrix.trace_one, Fintype.card_fin]
  have : (p : ℝ) ≠ 0 := by exact_mod_cast hp.ne'
  rw [Complex.natCast_re, div_self this]
  simp

open Classical in
theorem prepare_block {a : Args N p} {e : Env N p} (g : Good a) (he : EnvOK e) {s : St N p} {r : ℕ → M N p} {YtBY U : Sq p} {tr : ℝ}
    (h : prepare a e s = .ok r YtBY U tr) :
    let Y := Spec.scaled (Bm a) (s.r 0)
    if a.fl.reorth = true ∧ (Yᴴ * Bm a * Y)⁻¹.trace.re > 10 ^ 8 * p then (r 0)ᴴ * Bm a * r 0 = 1 ∧ tr = 0 else r 0 = Y ∧ tr = s.prevTrGX := by
  intro Y
  have hBH := (Bm_posDef g).isHermitian
  obtain ⟨-, -, m3, -⟩ := measure_spec a e s.iter 0 s.r g
  have m0 := measure_block a e s.iter 0 s.r
  unfold prepare at h
  simp only at h
  have hch : ∀ {S U : Sq p}, S.IsHermitian → e.inv S = some U → S.PosDef ∧ U = S⁻¹ := by
    intro S U hS hU
    by_cases hp : S.PosDef
    · exact ⟨hp, Option.some.inj (hU ▸ (he.inv S hS).1 hp)⟩
    · have := (he.inv S hS).2 hp
      rw [hU] at this
      cases this
  split at h
  · cases h
  · rename_i U1 hU1
    have hH1 : (measure a e s.iter 0 s.r).2.IsHermitian := by rw [m3]; exact herm_quad' hBH _
    obtain ⟨p1, i1⟩ := hch hH1 hU1
    rw [m3, m0] at i1 p1
    have hcond : (a.fl.reorth = true ∧ U1.trace.re > 10 ^ 8 * p) ↔ (a.fl.reorth = true ∧ (Yᴴ * Bm a * Y)⁻¹.trace.re > 10 ^ 8 * p) := by rw [i1]
    by_cases hf : a.fl.reorth = true ∧ (Yᴴ * Bm a * Y)⁻¹.trace.re > 10 ^ 8 * p
    · rw [if_pos (hcond.2 hf)] at h
      rw [if_pos hf]
      split at h
      · cases h
      · simp only [Prep.ok.injEq] at h
        obtain ⟨rfl, -, -, rfl⟩ := h
        refine ⟨?_, rfl⟩
        rw [measure_block, put_same, put_same, m0]
        have hUp : U1.PosDef := by rw [i1]; exact p1.inv
        obtain ⟨q1, q2⟩ := he.sqrtm U1 hUp
        have hdet : IsUnit (Yᴴ * Bm a * Y).det := (Matrix.isUnit_iff_isUnit_det _).1 p1.isUnit
        have hone : (Y * (e.sqrtm U1)ᴴ)ᴴ * Bm a * (Y * (e.sqrtm U1)ᴴ) = 1 := by
          have hu := sqrtm_unit he hUp
          rw [q1.eq] at hu ⊢
          have hd : IsUnit (e.sqrtm U1).det := (Matrix.isUnit_iff_isUnit_det _).1 hu
          have e1 : (Y * e.sqrtm U1)ᴴ * Bm a * (Y * e.sqrtm U1) = e.sqrtm U1 * (Yᴴ * Bm a * Y) * e.sqrtm U1 := by
            rw [conjTranspose_mul, q1.eq]; simp only [Matrix.mul_assoc]
          have e2 : Yᴴ * Bm a * Y = (e.sqrtm U1 * e.sqrtm U1)⁻¹ := by rw [q2, i1, Matrix.nonsing_inv_nonsing_inv _ hdet]
          rw [e1, e2, Matrix.mul_inv_rev, ← Matrix.mul_assoc, Matrix.mul_nonsing_inv _ hd, Matrix.one_mul, Matrix.nonsing_inv_mul _ hd]
        rw [scaled_one g.hp hone]
        exact hone
    · rw [if_neg (fun hh => hf (hcond.1 hh))] at h
      rw [if_neg hf]
      simp only [Prep.ok.injEq] at h
      obtain ⟨rfl, -, -, rfl⟩ := h
      exact ⟨m0, rfl⟩

/-! ## The direction -/

/-- The preconditioned gradient: the preconditioner applied to the gradient, the constraint, and (with `EIGS_PROJECT_PRECONDITIONING`) the
projection. -/
noncomputable def Spec.steepest (a : Args N p) (Y G : M N p) : M N p :=
  let U := (Yᴴ * Bm a * Y)⁻¹
  let x := match a.K with | some K => K G Y (Yᴴ * Bm a * Y) | none => G
  let x := match a.C with | some C => C * x | none => x
  if a.fl.project = true then x - Bm a * Y * (U * (Yᴴ * x)) else x

open Classical in
/-- The factor of the previous direction.  `num`: the numerator, `prev`: the trace of the previous iteration, `change`: the relative change
of the trace in percent in this iteration. -/
noncomputable def Spec.factor (a : Args N p) (s : St N p) (num prev change : ℝ) : ℝ :=
  if prev = 0 ∨ (a.fl.dynReset = true ∧ 2 * change ≥ s.hist ((s.iter + 1) % 5)) ∨ (a.fl.resetCG = true ∧ (s.iter + 1) % 70 = 0) then 0
  else num / prev

open Classical in
/-- What one iteration makes of the search direction, the remembered gradient, the remembered trace and the history. -/
structure Spec.Directed (a : Args N p) (s s' : St N p) (E : ℝ) (Y x z : M N p) (prev delta : ℝ) : Prop where
  /-- The block is scaled; if it is nearly degenerate it is orthonormalised, and the previous direction is forgotten. -/
  block : let Yn := Spec.scaled (Bm a) (s.r 0)
    if a.fl.reorth = true ∧ (Ynᴴ * Bm a * Yn)⁻¹.trace.re > 10 ^ 8 * p then Yᴴ * Bm a * Y = 1 ∧ prev = 0 else Y = Yn ∧ prev = s.prevTrGX
  /-- The space of the block is kept. -/
  space : ∃ S : Sq p, IsUnit S ∧ Y = s.r 0 * S
  steepest : x = Spec.steepest a Y (Spec.gradient a.A (Bm a) Y)
  /-- Without the orthogonal preconditioner nothing is corrected. -/
  plain : a.fl.orthoPre = false → z = x ∧ delta = 0
  /-- With it, the correction makes the direction orthogonal to the block; its contribution to the trace is the right one for a Hermitian
  preconditioner without constraint. -/
  ortho : a.fl.orthoPre = true → Yᴴ * z = 0 ∧ (∃ T, z = x - applyK a Y Y (Yᴴ * Bm a * Y) * T) ∧
    ((Spec.gradient a.A (Bm a) Y)ᴴ * applyK a Y Y (Yᴴ * Bm a * Y) = xᴴ * Y →
      Spec.dot (Spec.gradient a.A (Bm a) Y) x + delta = Spec.dot (Spec.gradient a.A (Bm a) Y) z)
  /-- The new direction: Polak-Ribiere if there is room for the previous gradient, Fletcher-Reeves otherwise. -/
  direction : lastDir a s' = z + ((Spec.factor a s (Spec.dot (Spec.gradient a.A (Bm a) Y - if pr a = true then s.r (sPrev a) else 0) x + delta) prev
    (200 * |E - s.prevE| / (|E| + |s.prevE|)) : ℝ) : ℂ) • lastDir a s
  remembered : pr a = true → s'.r (sPrev a) = Spec.gradient a.A (Bm a) Y
  trace : s'.prevTrGX = Spec.dot (Spec.gradient a.A (Bm a) Y) x + delta
  history : ∀ i < 5, s'.hist i = if i = s.iter % 5 then 200 * |E - s.prevE| / (|E| + |s.prevE|)
    else if a.fl.dynReset = true ∧ 2 * (200 * |E - s.prevE| / (|E| + |s.prevE|)) ≥ s.hist ((s.iter + 1) % 5) then 10000 else s.hist i

theorem spec_gradient {a : Args N p} (g : Good a) {Y : M N p} {U : Sq p} (hU : U = (Yᴴ * Bm a * Y)⁻¹) (hUH : Uᴴ = U) :
    a.A * Y * U - Bm a * Y * (U * (Yᴴ * a.A * Y * U))ᴴ = Spec.gradient a.A (Bm a) Y := by
  have hM : (Yᴴ * a.A * Y)ᴴ = Yᴴ * a.A * Y := by
    simp only [conjTranspose_mul, conjTranspose_conjTranspose, g.hA.eq, Matrix.mul_assoc]
  have hc : (U * (Yᴴ * a.A * Y * U))ᴴ = U * (Yᴴ * a.A * Y) * U := by rw [conjTranspose_mul, conjTranspose_mul, hM, hUH]
  unfold Spec.gradient
  rw [hc, ← hU, Matrix.sub_mul]
  simp only [Matrix.mul_assoc]

open Classical in
theorem gammaOf_spec (a : Args N p) (s : St N p) (c num prev : ℝ) :
    (gammaOf a s (fun i => if i = s.iter % histSize then c else s.hist i) num prev).1 = Spec.factor a s num prev c ∧
      ∀ i, (gammaOf a s (fun i => if i = s.iter % histSize then c else s.hist i) num prev).2 i =
        if i = s.iter % 5 then c else if a.fl.dynReset = true ∧ 2 * c ≥ s.hist ((s.iter + 1) % 5) then 10000 else s.hist i := by
  have hh5 : ∀ i, i % histSize = i % 5 := fun _ => rfl
  have hne : (s.iter + 1) % 5 ≠ s.iter % 5 := by omega
  refine ⟨?_, fun i => ?_⟩
  · unfold gammaOf Spec.factor
    simp only [hh5, if_true, if_neg hne, decide_eq_true_eq]
    by_cases c1 : a.fl.resetCG = true ∧ (s.iter + 1) % 70 = 0
    · rw [if_pos c1, if_pos (Or.inr (Or.inr c1))]
    rw [if_neg c1]
    by_cases c2 : a.fl.dynReset = true ∧ 2 * c ≥ s.hist ((s.iter + 1) % 5)
    · rw [if_pos c2, if_pos (Or.inr (Or.inl c2))]
    rw [if_neg c2]
    by_cases c3 : prev = 0
    · rw [if_pos c3, if_pos (Or.inl c3)]
    · rw [if_neg c3, if_neg (by rintro (h | h | h) <;> contradiction)]
  · unfold gammaOf
    simp only [hh5, if_true, if_neg hne, decide_eq_true_eq]
    by_cases c2 : a.fl.dynReset = true ∧ 2 * c ≥ s.hist ((s.iter + 1) % 5)
    · rw [if_pos c2, if_pos c2]
      split_ifs <;> rfl
    · rw [if_neg c2, if_neg c2]

/-- C98: what one iteration of the eigensolver does with the search direction, for every state, all operators, every preconditioner, all flags
and both kinds of line minimisation. -/
theorem C98_direction {a : Args N p} {e : Env N p} (g : Good a) (he : EnvOK e) (hgen : ∀ S T, e.invGen S = some T → S * T = 1) (hcg : cg a = true)
    {s s' : St N p} {E : ℝ} (h : step a e s = .next s' E) :
    ∃ Y x z prev delta, Spec.Directed a s s' E Y x z prev delta := by
  obtain ⟨d1, d2, d3, d4⟩ := slots hcg
  unfold step at h
  simp only at h
  split at h
  · cases h
  · split_ifs at h
  · rename_i r YtBY U tr hp
    have P := prepare_spec g he s hp
    have hblock := prepare_block g he hp
    obtain ⟨t1, t2, t3, t4, t5⟩ := prepared_trace (e := e) g P s.iter
    obtain ⟨e1, e2⟩ := evalTrace_spec a e s.iter U r t5
    have hgrad := gradient_eq (e := e) P
    have hb : sBY a ≠ 1 ∧ sBY a ≠ 2 := by unfold sBY; split_ifs <;> decide
    have hU : U = ((r 0)ᴴ * Bm a * r 0)⁻¹ := by rw [P.inv, P.over]
    rw [spec_gradient g hU t5.eq] at hgrad
    by_cases hc : Converged a.tol s.iter (evalTrace a e s.iter U r).2.trace.re s.prevE
    · rw [if_pos hc] at h; cases h
    rw [if_neg hc] at h
    split at h
    · cases h
    rename_i d hd
    split at h
    · cases h
    rename_i l hl
    simp only [Out.next.injEq] at h
    obtain ⟨rfl, rfl⟩ := h
    set E := (evalTrace a e s.iter U r).2.trace.re with hE
    obtain ⟨l1, l2⟩ := lineMin_keeps hcg rfl hl
    dsimp only at l1 l2
    -- after the gradient
    unfold direction at hd
    simp only at hd
    set r1 := gradient a U (evalTrace a e s.iter U r).2 (evalTrace a e s.iter U r).1 with hr1
    have g1 : ∀ k, k ≠ 1 → k ≠ 2 → r1 k = r k := fun k hk h2 => by rw [hr1]; unfold gradient; rw [put_ne _ _ hk, e2 _ hk h2]
    have hrD : r (sD a) = s.r (sD a) := P.frame _ (by omega) (by omega) d2
    have hrP : pr a = true → r (sPrev a) = s.r (sPrev a) := fun hp => by
      obtain ⟨p1, p2, p3, p4⟩ := d4 hp
      exact P.frame _ (by omega) (by omega) p3
    -- the preconditioned gradient
    have hx : precond a YtBY U r1 2 = Spec.steepest a (r 0) (Spec.gradient a.A (Bm a) (r 0)) := by
      unfold precond Spec.steepest
      simp only
      have q0 : ∀ k, k ≠ 2 → constrain a 2 (put r1 2 (applyK a (r1 1) (r1 0) YtBY)) k = r1 k := fun k hk => by
        rw [(constrain_spec a g 2 _).2.2 k hk, put_ne _ _ hk]
      have q2 : constrain a 2 (put r1 2 (applyK a (r1 1) (r1 0) YtBY)) 2 =
          (match a.C with
          | some C => C * (match a.K with | some K => K (Spec.gradient a.A (Bm a) (r 0)) (r 0) ((r 0)ᴴ * Bm a * r 0) | none => Spec.gradient a.A (Bm a) (r 0))
          | none => match a.K with | some K => K (Spec.gradient a.A (Bm a) (r 0)) (r 0) ((r 0)ᴴ * Bm a * r 0) | none => Spec.gradient a.A (Bm a) (r 0)) := by
        unfold constrain applyK
        rw [hgrad, g1 0 (by decide) (by decide), P.over]
        cases a.C <;> cases a.K <;> simp only [put_same]
      by_cases hf : a.fl.project = true
      · rw [if_pos hf, if_pos hf, put_same, q2, q0 _ hb.2, q0 _ (by decide), g1 _ hb.1 hb.2, g1 0 (by decide) (by decide), P.by_, ← hU]
      · rw [if_neg hf, if_neg hf, q2]
    have hpk : ∀ k, k ≠ 2 → precond a YtBY U r1 k = r1 k := by
      intro k hk
      unfold precond
      have q0 : ∀ k, k ≠ 2 → constrain a 2 (put r1 2 (applyK a (r1 1) (r1 0) YtBY)) k = r1 k := fun k hk => by
        rw [(constrain_spec a g 2 _).2.2 k hk, put_ne _ _ hk]
      split_ifs
      · rw [put_ne _ _ hk, q0 k hk]
      · exact q0 k hk
    set G := Spec.gradient a.A (Bm a) (r 0) with hG
    set x := Spec.steepest a (r 0) G with hxdef
    set r2 := precond a YtBY U r1 with hr2
    have r21 : r2 1 = G := by rw [hpk 1 (by decide), hgrad]
    -- the numerator
    obtain ⟨n1, n2, n3, n4⟩ : (gammaNum a r2).2 = Spec.dot (G - if pr a = true then s.r (sPrev a) else 0) x ∧ (gammaNum a r2).1 2 = x ∧
        (∀ k, k ≠ 1 → k ≠ 2 → (pr a = true → k ≠ sPrev a) → (gammaNum a r2).1 k = r k) ∧ (pr a = true → (gammaNum a r2).1 (sPrev a) = G) := by
      unfold gammaNum
      rw [if_pos hcg]
      by_cases hpr : pr a = true
      · obtain ⟨p1, p2, p3, p4⟩ := d4 hpr
        rw [if_pos hpr, if_pos hpr]
        simp only
        refine ⟨?_, ?_, ?_, fun _ => ?_⟩
        · rw [put_ne _ _ (by omega), put_same, put_ne _ _ (by omega), put_ne _ _ (by omega), hx, r21, hpk _ (by omega), g1 _ (by omega) (by omega), hrP hpr]
          rfl
        · rw [put_ne _ _ (by omega), put_ne _ _ (by omega), hx]
        · intro k k1 k2 kp
          rw [put_ne _ _ (kp hpr), put_ne _ _ k1, hpk _ k2, g1 _ k1 k2]
        · rw [put_same, r21]
      · rw [if_neg hpr, if_neg hpr]
        refine ⟨?_, hx, fun k k1 k2 _ => ?_, fun hh => absurd hh hpr⟩
        · rw [sub_zero]
          show trXtY (r2 1) (r2 2) = _
          rw [hx, r21]; rfl
        · show r2 k = _
          rw [hpk _ k2, g1 _ k1 k2]
    have hn0 : (gammaNum a r2).1 0 = r 0 := n3 0 (by decide) (by decide) (fun hp => by have := (d4 hp).1; omega)
    have hnD : (gammaNum a r2).1 (sD a) = s.r (sD a) := by
      rw [n3 _ (by omega) (by omega) (fun hp => Ne.symm (d4 hp).2.1), hrD]
    rw [Option.map_eq_some_iff] at hd
    obtain ⟨o, ho, hd⟩ := hd
    rw [if_pos hcg] at hd
    have ho2 : ∃ z, o.1 2 = z ∧ (∀ k, k ≠ 1 → k ≠ 2 → o.1 k = (gammaNum a r2).1 k) ∧ (a.fl.orthoPre = false → z = x ∧ o.2 = 0) ∧
        (a.fl.orthoPre = true → (r 0)ᴴ * z = 0 ∧ (∃ T, z = x - applyK a (r 0) (r 0) YtBY * T) ∧
          (Gᴴ * applyK a (r 0) (r 0) YtBY = xᴴ * r 0 → Spec.dot G x + o.2 = Spec.dot G z)) := by
      unfold orthoPre at ho
      by_cases hop : a.fl.orthoPre = true
      · rw [if_pos hop] at ho
        simp only at ho
        rw [Option.map_eq_some_iff] at ho
        obtain ⟨S1, hS1, rfl⟩ := ho
        simp only at hS1 ⊢
        rw [put_same, put_ne _ _ (by decide : (2 : ℕ) ≠ 1), put_ne _ _ (by decide : (0 : ℕ) ≠ 1), hn0, n2]
        rw [put_same, put_ne _ _ (by decide : (0 : ℕ) ≠ 1), hn0] at hS1
        have hinv := hgen _ _ hS1
        refine ⟨_, rfl, fun k k1 k2 => by rw [put_ne _ _ k2, put_ne _ _ k1], fun hh => absurd (hop.symm.trans hh) (by decide), fun _ => ?_⟩
        rw [put_same]
        have hS3 : (xᴴ * r 0 * S1ᴴ)ᴴ = S1 * ((r 0)ᴴ * x) := by
          rw [conjTranspose_mul, conjTranspose_mul, conjTranspose_conjTranspose, conjTranspose_conjTranspose]
        rw [hS3]
        refine ⟨?_, ⟨_, rfl⟩, fun hK => ?_⟩
        · rw [Matrix.mul_sub, ← Matrix.mul_assoc, ← Matrix.mul_assoc, hinv, Matrix.one_mul, sub_self]
        · unfold Spec.dot
          rw [Matrix.mul_sub, ← Matrix.mul_assoc Gᴴ, hK, Matrix.trace_sub, Complex.sub_re, ← sub_eq_add_neg]
          congr 2
          rw [Matrix.trace_mul_comm]
      · rw [if_neg hop] at ho
        simp only [Option.some.injEq] at ho
        subst ho
        exact ⟨_, rfl, fun _ _ _ => rfl, fun _ => ⟨n2, rfl⟩, fun hh => absurd hh hop⟩
    obtain ⟨z, z1, z2, z3, z4⟩ := ho2
    refine ⟨r 0, x, z, tr, o.2, hblock, P.unit, rfl, z3, ?_, ?_, ?_, ?_, ?_⟩
    · rw [← P.over]; exact z4
    · show ((l.dScale : ℝ) : ℂ) • (constrain a 0 l.r) (sD a) = _
      rw [(constrain_spec a g 0 l.r).2.2 _ (by omega), l1, ← hd]
      simp only
      rw [put_same, z1, z2 _ (by omega) (by omega), hnD, add_comm]
      congr 1
      unfold lastDir
      rw [smul_smul, ← Complex.ofReal_mul, n1]
      rw [(gammaOf_spec a s _ _ _).1]
    · intro hpr
      obtain ⟨p1, p2, p3, p4⟩ := d4 hpr
      show (constrain a 0 l.r) (sPrev a) = _
      rw [(constrain_spec a g 0 l.r).2.2 _ (by omega), l2 hpr, ← hd]
      simp only
      rw [put_ne _ _ p2, z2 _ (by omega) (by omega), n4 hpr]
    · show d.trGX = _
      rw [← hd]
      show trXtY (r2 1) (r2 2) + o.2 = _
      rw [hx, r21]; rfl
    · intro i hi
      show d.hist i = _
      rw [← hd]
      exact (gammaOf_spec a s _ ((gammaNum a r2).2 + o.2) tr).2 i

/-- C98, starts: at the start and after every emergency restart the history is empty. -/
theorem C98_start {a : Args N p} {e : Env N p} {s s' : St N p} (h : begin a e s = some s') : ∀ i, s'.hist i = 10000 := by
  unfold begin at h
  rw [Option.map_eq_some_iff] at h
  obtain ⟨r, -, rfl⟩ := h
  intro i; rfl

/-! ## A case -/

/-- The problem of `C68_approx_refuted` with room for conjugate gradients and for the previous gradient. -/
noncomputable def args4 : Args 2 1 := ⟨sym 1 0 0, none, none, none, 4, 1, approxFlags, false⟩

theorem args4_good : Good args4 :=
  ⟨one_pos, sym_herm 1 0 0, fun B h => (by cases h), fun C h => (by cases h), fun _ C B h => (by cases h), zero_le_one⟩

theorem args4_slots : sBY args4 = 0 ∧ cg args4 = true ∧ sD args4 = 3 ∧ sBD args4 = 3 ∧ pr args4 = true ∧ sPrev args4 = 4 := by
  have h2 : cg args4 = true := by simp [cg, args4, nB]
  have h3 : sD args4 = 3 := by unfold sD; rw [h2]; rfl
  have h4 : pr args4 = true := by simp [pr, args4, nB]
  refine ⟨rfl, h2, h3, ?_, h4, ?_⟩
  · unfold sBD; rw [h3]; rfl
  · unfold sPrev; rw [h4]; rfl

/-- Non-vacuity of `C98_direction`: the first iteration of a run with conjugate gradients (Polak-Ribiere). -/
example : Good args4 ∧ EnvOK env1 ∧ (∀ S T, env1.invGen S = some T → S * T = 1) ∧ cg args4 = true ∧
    ∃ s', step args4 env1 (initial args4 (col (3 / 5) (4 / 5)) fun _ => 0) = .next s' (9 / 25) := by
  obtain ⟨e1, e2, e3, e4, e5, e6⟩ := args4_slots
  refine ⟨args4_good, env1_ok, fun S T h => (by cases h), e2, ?_⟩
  set s := initial args4 (col (3 / 5) (4 / 5)) fun _ => 0 with hs
  have h0 : s.r 0 = col (3 / 5) (4 / 5) := rfl
  have hB : args4.B = none := rfl
  have hm : measure args4 env1 s.iter 0 s.r = (put s.r 0 (col (3 / 5) (4 / 5)), sc 1) := by
    unfold measure
    have ho : opB args4 env1 s.iter 0 0 0 1 s.r = s.r := rfl
    simp only [e1, ho, hB, h0, col_over, sc_trace, Option.isSome_none, Bool.false_eq_true, if_false]
    norm_num
  have hp : prepare args4 env1 s = .ok (put s.r 0 (col (3 / 5) (4 / 5))) (sc 1) (sc 1) s.prevTrGX := by
    unfold prepare
    simp only [hm, env1_inv one_pos]
    rw [if_neg]
    · norm_num
    · rintro ⟨-, h⟩
      norm_num at h
  have ht : evalTrace args4 env1 s.iter (sc 1) (put s.r 0 (col (3 / 5) (4 / 5))) =
      (put (put (put s.r 0 (col (3 / 5) (4 / 5))) 2 (col (3 / 5) 0)) 1 (col (3 / 5) 0), sc (9 / 25)) := by
    have hsp : ∀ r', spoil args4 env1 s.iter 2 1 r' = r' := fun r' => rfl
    have hA : args4.A = sym 1 0 0 := rfl
    unfold evalTrace opA
    simp only [hsp, put_same, put_ne _ _ (show (0 : ℕ) ≠ 1 by decide), put_ne _ _ (show (0 : ℕ) ≠ 2 by decide), hA, h0, sym_col, sc_conj, col_sc, mul_one,
      col_over]
    norm_num
  set r := put (put (put s.r 0 (col (3 / 5) (4 / 5))) 2 (col (3 / 5) 0)) 1 (col (3 / 5) 0) with hr
  have r0 : r 0 = col (3 / 5) (4 / 5) := by rw [hr, put_ne _ _ (by decide), put_ne _ _ (by decide), put_same]
  have r3 : r 3 = 0 := by
    rw [hr, put_ne _ _ (by decide), put_ne _ _ (by decide), put_ne _ _ (by decide), hs]
    unfold initial
    simp [e2, e3]
  have r4 : r 4 = 0 := by
    rw [hr, put_ne _ _ (by decide), put_ne _ _ (by decide), put_ne _ _ (by decide), hs]
    unfold initial
    simp [e5, e6]
  set q := col (48 / 125) (-36 / 125) with hq
  obtain ⟨d, hd, d0, d3, d4⟩ : ∃ d, direction args4 env1 s (fun i => if i = s.iter % histSize then 200 * |9 / 25 - s.prevE| / (|9 / 25| + |s.prevE|) else s.hist i)
      s.prevTrGX (sc 1) (sc 1) (sc (9 / 25)) r = some d ∧ d.r 0 = col (3 / 5) (4 / 5) ∧ d.r 3 = q ∧ d.r 4 = q := by
    have hg : gradient args4 (sc 1) (sc (9 / 25)) r = put r 1 q := by
      unfold gradient
      rw [e1, r0, hr, put_same, sc_mul, sc_conj, col_sc, col_sub, hq]
      congr 1
      exact col_ext (by norm_num) (by norm_num)
    have hpc : precond args4 (sc 1) (sc 1) (put r 1 q) = put (put r 1 q) 2 q := by
      unfold precond
      have hfl : args4.fl.project = false := rfl
      simp only [hfl, Bool.false_eq_true, if_false]
      have hk : applyK args4 (put r 1 q 1) (put r 1 q 0) (sc 1) = q := by
        unfold applyK
        exact put_same _ _ _
      rw [hk]
      rfl
    have hop : args4.fl.orthoPre = false := rfl
    unfold direction gammaNum orthoPre
    simp only [hop, e2, e3, e5, e6, hg, hpc, Bool.false_eq_true, if_false, if_true, Option.map_some]
    refine ⟨_, rfl, ?_, ?_, ?_⟩
    · simp only
      rw [put_ne _ _ (by decide), put_ne _ _ (by decide), put_ne _ _ (by decide), put_ne _ _ (by decide), put_ne _ _ (by decide), r0]
    · simp only
      rw [put_same, put_ne _ _ (by decide : (3 : ℕ) ≠ 4), put_ne _ _ (by decide : (3 : ℕ) ≠ 1), put_ne _ _ (by decide : (3 : ℕ) ≠ 2),
        put_ne _ _ (by decide : (3 : ℕ) ≠ 1), r3, smul_zero, zero_add, put_ne _ _ (by decide : (2 : ℕ) ≠ 4), put_ne _ _ (by decide : (2 : ℕ) ≠ 1), put_same]
    · simp only
      rw [put_ne _ _ (by decide : (4 : ℕ) ≠ 3), put_same, put_ne _ _ (by decide : (1 : ℕ) ≠ 2), put_same]
  have hfa : args4.fl.forceApprox = true := rfl
  obtain ⟨l', hl⟩ : ∃ l', lineMin args4 env1 s.iter (9 / 25) s.prevE (sc (9 / 25)) (sc 1) ⟨d.r, sc 1, 0, s.prevTheta, false, s.forceExact, 1, s.improvement⟩ = some l' := by
    have hsp : ∀ it site k r', spoil args4 env1 it site k r' = r' := fun _ _ _ r' => rfl
    have hA : args4.A = sym 1 0 0 := rfl
    have hn : Real.sqrt (trXtY q q / ((1 : ℕ) : ℝ)) = 12 / 25 := by
      unfold trXtY
      rw [hq, col_over, sc_trace]
      rw [show ((48 / 125 * (48 / 125) + -36 / 125 * (-36 / 125)) / ((1 : ℕ) : ℝ) : ℝ) = (12 / 25) ^ 2 by norm_num]
      exact Real.sqrt_sq (by norm_num)
    have hdE : 2 * trXtY q q / (12 / 25) = 24 / 25 := by
      unfold trXtY
      rw [hq, col_over, sc_trace]
      norm_num
    have hth : s.prevTheta = 1 / 2 := by rw [hs]; unfold initial; norm_num
    unfold lineMin approxMin opB opA
    simp only [Bool.false_eq_true, if_false, hB, e1, e3, e4, e6, hfa, hsp, d0, d3, d4, hn, hdE, hth, if_true]
    rw [if_neg (by norm_num), if_neg (show ¬ ((24 : ℝ) / 25 < 0) by norm_num), abs_of_pos (show (0 : ℝ) < 1 / 2 by norm_num)]
    have hY : col (3 / 5) (4 / 5) + ((((1 : ℝ) / 2 / (12 / 25) : ℝ)) : ℂ) • q = col 1 (1 / 2) := by
      rw [hq, col_smul, col_add]
      exact col_ext (by norm_num) (by norm_num)
    have hi : env1.inv (sc (1 * 1 + 1 / 2 * (1 / 2))) = some (sc (4 / 5)) := by
      rw [env1_inv (by norm_num)]
      norm_num
    rw [hY]
    simp only [put_same, put_ne _ _ (show (0 : ℕ) ≠ 1 by decide), hi, hA, sym_col, col_over, sc_conj, sc_mul, sc_trace]
    rw [if_neg (by norm_num), if_neg (by norm_num), if_pos (Or.inl (by norm_num))]
    exact ⟨_, rfl⟩
  refine ⟨finishIter args4 env1 s (9 / 25) d.trGX d.hist l', ?_⟩
  unfold step
  simp only [hp, ht, sc_trace, hfa, if_true]
  rw [if_neg (fun h => absurd h.1 (lt_irrefl 0)), hd]
  simp only [hl]

end Mpb.Eig

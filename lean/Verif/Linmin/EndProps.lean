import Verif.Linmin.EndLemmas
import Verif.Solver.TraceProps

/-!
# C122: the line minimisation ends
-/

namespace Mpb.Linmin

open Spec

/-- A function with a downward slope at 0 goes down as promised near 0. -/
theorem descends_of_deriv {P : Par} {φ : ℝ → ℝ × ℝ} {f0 g0 : ℝ} (hφ : φ 0 = (f0, g0)) (hg0 : g0 < 0) (hft1 : P.ftol < 1)
    (hd : HasDerivAt (fun t => (φ t).1) g0 0) (hc : ContinuousAt (fun t => (φ t).2) 0) : Descends P φ f0 g0 := by
  have h1 : ∀ᶠ x in nhds (0 : ℝ), (φ x).2 < 0 := by
    have : (fun t => (φ t).2) 0 < 0 := by simp [hφ, hg0]
    exact hc.eventually_lt continuousAt_const this
  have h2 : ∀ᶠ x in nhds (0 : ℝ), |(φ x).1 - f0 - x * g0| ≤ (1 - P.ftol) * (-g0) * |x| := by
    have hpos : 0 < (1 - P.ftol) * (-g0) := mul_pos (by linarith) (by linarith)
    have := hd.isLittleO.def hpos
    filter_upwards [this] with x hx
    simpa [hφ, Real.norm_eq_abs, mul_comm] using hx
  obtain ⟨δ, hδ, hb⟩ := Metric.eventually_nhds_iff.mp (h1.and h2)
  refine ⟨δ, hδ, fun x hx hxd => ?_⟩
  obtain ⟨a, b⟩ := hb (y := x) (by rw [Real.dist_eq, sub_zero, abs_of_pos hx]; exact hxd)
  refine ⟨?_, a⟩
  rw [abs_of_pos hx] at b
  have := (abs_le.mp b).2
  nlinarith

theorem linminDown_ends {P : Par} {φ : ℝ → ℝ × ℝ} {f0 g0 xg : ℝ} {w : Saved} (hφ : φ 0 = (f0, g0)) (h0 : P.stpmin = 0)
    (hx : 0 < P.xtol) (hg0 : g0 < 0) (hxg : xg ≠ 0) (hD : Descends P φ f0 g0)
    (hend : f0 + P.stpmax * (P.ftol * g0) < (φ P.stpmax).1) : ∃ N, ∀ n ≥ N, linminDown P φ n xg f0 g0 w ≠ .running := by
  obtain ⟨t1, w1, h1, h2, h3, h4⟩ := C24_start P xg f0 g0 w
  have hR : Run P φ f0 g0 xg w t1 xg f0 g0 w1 [] := Run.start h1
  by_cases hv : ValidStart P xg g0
  · obtain ⟨rfl, hw⟩ := h4 hv
    obtain ⟨-, hI⟩ := run_inv hφ hR rfl
    have hxp : 0 < xg := lt_of_le_of_ne (by rw [← h0]; exact hv.stp_ge) (Ne.symm hxg)
    have hF : Free P φ f0 g0 (restore w1) xg := by
      refine ⟨hI, ?_, ?_, ?_, ?_, ?_, ?_, hv.stp_le, fun _ => ?_⟩ <;> rw [hw] <;> simp only [initLocal]
      · exact hg0
      · simp
      · exact le_rfl
      · exact hxp
      · constructor <;> linarith
    obtain ⟨N, hN⟩ := free_ends h0 (by rw [← h0]; exact hv.stpmax) hx hv.ftol hv.gtol hφ hg0 hD hend hF
    refine ⟨N, fun n hn => ?_⟩
    unfold linminDown
    rw [h1]
    exact hN n hn _ _
  · refine ⟨1, fun n hn => ?_⟩
    obtain ⟨n, rfl⟩ : ∃ m, n = m + 1 := ⟨n - 1, by omega⟩
    rw [((linminDown_spec hφ h0 n).1).mpr hv]
    simp

/-- **C122** (partial): the line minimisation ends after finitely many evaluations of the function, whatever the function does away from
the starting point, if
* the slope passed in is the derivative of the function at the starting point and the reported slope is continuous there,
* the trial step is not the starting point itself,
* at the step limit the function is not below the line of sufficient decrease.
The lower limit is 0, as in the eigensolver; a NaN counts as an end.  Missing: the last two conditions, which are necessary
(`C122_zero_refuted`, `C122_limit_refuted`). -/
theorem C122_linmin_partial (P : Par) (φ : ℝ → ℝ × ℝ) (xg f0 df0 : ℝ) (w : Saved) (hφ : φ 0 = (f0, df0)) (h0 : P.stpmin = 0)
    (hx : 0 < P.xtol) (hft : P.ftol < 1) (hd : HasDerivAt (fun t => (φ t).1) df0 0) (hc : ContinuousAt (fun t => (φ t).2) 0)
    (hxg : xg ≠ 0) (hend : f0 + P.stpmax * (P.ftol * df0) < (φ P.stpmax).1) :
    ∃ N, ∀ n ≥ N, linmin P φ n xg f0 df0 w ≠ .running := by
  rcases lt_trichotomy df0 0 with hneg | hz | hpos
  · obtain ⟨N, hN⟩ := linminDown_ends (w := w) hφ h0 hx hneg hxg (descends_of_deriv hφ hneg hft hd hc) hend
    refine ⟨N, fun n hn => ?_⟩
    unfold linmin
    rw [if_neg (not_lt.mpr hneg.le), if_neg hneg.ne]
    exact hN n hn
  · refine ⟨0, fun n _ => ?_⟩
    unfold linmin
    rw [if_neg (by rw [hz]; exact lt_irrefl _), if_pos hz]
    simp
  · have hφ' : reverse φ 0 = (f0, -df0) := by simp [reverse, hφ]
    have hd' : HasDerivAt (fun t => (reverse φ t).1) (-df0) 0 := by
      have h1 : HasDerivAt (fun t : ℝ => -t) (-1) 0 := hasDerivAt_neg 0
      have h2 : HasDerivAt (fun t => (φ t).1) df0 (-(0 : ℝ)) := by simpa using hd
      have := h2.comp (0 : ℝ) h1
      simpa [Function.comp_def, reverse] using this
    have hc' : ContinuousAt (fun t => (reverse φ t).2) 0 := by
      have h2 : ContinuousAt (fun t => (φ t).2) (-(0 : ℝ)) := by simpa using hc
      exact (h2.comp (f := fun t : ℝ => -t) (x := 0) continuous_neg.continuousAt).neg
    have hD := descends_of_deriv (P := { P with stpmin := -P.stpmin, stpmax := -P.stpmax }) hφ' (by linarith) hft hd' hc'
    have hend' : f0 + (-P.stpmax) * (P.ftol * (-df0)) < (reverse φ (-P.stpmax)).1 := by
      simp only [reverse, neg_neg]
      linarith
    obtain ⟨N, hN⟩ := linminDown_ends (P := { P with stpmin := -P.stpmin, stpmax := -P.stpmax }) (xg := -xg) (w := w) hφ'
      (by simp [h0]) hx (by linarith) (by simpa using hxg) hD hend'
    refine ⟨N, fun n hn => ?_⟩
    unfold linmin
    rw [if_pos hpos]
    have := hN n hn
    split
    · simp
    · exact this

theorem thetaGuess_ne {dE d2E prevTheta : ℝ} (hdE : dE ≠ 0) (hp : prevTheta ≠ 0) : thetaGuess dE d2E prevTheta ≠ 0 := by
  unfold thetaGuess
  have hab : |prevTheta| ≠ 0 := abs_ne_zero.mpr hp
  have halt : (open Classical in if dE > 0 then -|prevTheta| else |prevTheta|) ≠ 0 := by
    split_ifs
    · exact neg_ne_zero.mpr hab
    · exact hab
  simp only
  by_cases h1 : d2E < 0 ∨ d2E = 0
  · rw [if_pos h1]
    split_ifs at halt ⊢ <;> exact halt
  · rw [if_neg h1]
    push Not at h1
    by_cases h2 : |-dE / d2E| ≥ Real.pi
    · rw [if_pos h2]
      split_ifs at halt ⊢ <;> exact halt
    · rw [if_neg h2]
      exact div_ne_zero (neg_ne_zero.mpr hdE) h1.2

/-! ## Searches that never end -/

/-- If a call of `dcsrch` asks for the same point again and keeps a condition on the work arrays, the search never ends. -/
theorem loop_forever {P : Par} {φ : ℝ → ℝ × ℝ} {x : ℝ} (Q : Local → Prop)
    (h : ∀ w, Q (restore w) → ∃ w', dcsrch P .fg x (φ x).1 (φ x).2 w = some (.fg, x, w') ∧ Q (restore w')) :
    ∀ n w f g, Q (restore w) → loop P φ n x f g .fg w = .running := by
  intro n
  induction n with
  | zero => intro w f g _; rfl
  | succ n ih =>
    intro w f g hQ
    obtain ⟨w', h1, h2⟩ := h w hQ
    rw [loop, if_pos rfl, h1]
    exact ih w' _ _ h2

/-- A call of `dcsrch` that goes on, from its parts. -/
theorem dcsrch_go {P : Par} {x f g : ℝ} {w : Saved} {l1 : Local} {x1 : ℝ} (hst : staged (restore w) x f g = restore w)
    (ht : testTask P (restore w) x f g = .fg) (hs : stepCall (restore w) x f g = some (l1, x1)) :
    ∃ w', dcsrch P .fg x f g w = some (.fg, (finish P l1 x1).2, w') ∧ restore w' = (finish P l1 x1).1 := by
  refine ⟨save (finish P l1 x1).1 w, ?_, C24_save_restore _ _⟩
  unfold dcsrch
  simp only [reduceCtorEq, if_false]
  change (if (testTask P (staged (restore w) x f g) x f g).isWarn = true ∨ testTask P (staged (restore w) x f g) x f g = .conv then _
    else (stepCall (staged (restore w) x f g) x f g).bind fun r => _) = _
  rw [hst, ht, if_neg (by simp [Task.isWarn]), hs]
  rfl

/-- `dcstep` on a lower value with a slope of the same (negative) sign. -/
theorem dcstep_same_sign {s : Step} {fp dp lo hi y : ℝ} (hf : fp ≤ s.fx) (hd : s.dx < 0) (hdp : dp < 0)
    (hy : (open Classical in if |dp| < |s.dx| then case3 s fp dp lo hi else case4 s fp dp lo hi) = some y) :
    dcstep s fp dp lo hi = some { s with stx := s.stp, fx := fp, dx := dp, stp := y } := by
  have hsg : cdiv s.dx |s.dx| = some (-1) := by
    unfold cdiv
    rw [if_neg (by simpa using hd.ne), abs_of_neg hd, div_neg, div_self hd.ne]
  have h1 : ¬ fp > s.fx := not_lt.mpr hf
  have h2 : ¬ dp * -1 < 0 := by linarith
  unfold dcstep
  rw [hsg]
  simp only [Option.bind_eq_bind, Option.bind_some, if_neg h1, if_neg h2]
  rw [hy]
  rfl

/-- The work arrays of a search that is stuck at `x`. -/
structure Stuck (P : Par) (f0 g0 x f g : ℝ) (l : Local) : Prop where
  br : l.brackt = false
  stage : l.stage = 1
  finit : l.finit = f0
  ginit : l.ginit = g0
  gtest : l.gtest = P.ftol * g0
  stx : l.stx = x
  fx : l.fx = f
  gx : l.gx = g
  lo : x ≤ l.stmin
  at_ : x = P.stpmax ∨ l.stmin = x

theorem going {P : Par} {f0 g0 x f g : ℝ} {l : Local} (hb : l.brackt = false) (hs : l.stage = 1) (hfi : l.finit = f0) (hgi : l.ginit = g0)
    (hgt : l.gtest = P.ftol * g0) (hg : g < 0) (hconv : P.gtol * (-g0) < |g|) (h1 : ¬ (x = P.stpmax ∧ g ≤ P.ftol * g0))
    (h2 : ¬ (x = P.stpmin ∧ (f > f0 + x * (P.ftol * g0) ∨ g ≥ P.ftol * g0))) : staged l x f g = l ∧ testTask P l x f g = .fg := by
  constructor
  · unfold staged
    rw [if_neg (by rintro ⟨-, -, h⟩; linarith)]
  · unfold testTask
    simp only [hb, hfi, hgi, hgt, Bool.false_eq_true, false_and, if_false]
    rw [if_neg (by rintro ⟨-, h⟩; linarith), if_neg h2, if_neg (by rintro ⟨a, -, b⟩; exact h1 ⟨a, b⟩)]

theorem stuck_step {P : Par} {f0 g0 x f g : ℝ} {w : Saved} (hmin : P.stpmin ≤ x) (hmax : x ≤ P.stpmax)
    (hf : f ≤ f0 + x * (P.ftol * g0)) (hg : g < 0) (hconv : P.gtol * (-g0) < |g|) (h1 : ¬ (x = P.stpmax ∧ g ≤ P.ftol * g0))
    (h2 : ¬ (x = P.stpmin ∧ g ≥ P.ftol * g0)) (hS : Stuck P f0 g0 x f g (restore w)) :
    ∃ w', dcsrch P .fg x f g w = some (.fg, x, w') ∧ Stuck P f0 g0 x f g (restore w') := by
  obtain ⟨hst, ht⟩ := going (P := P) (f := f) hS.br hS.stage hS.finit hS.ginit hS.gtest hg hconv h1
    (by rintro ⟨a, b | b⟩
        · linarith
        · exact h2 ⟨a, b⟩)
  have hsc : stepCall (restore w) x f g = some (restore w, (restore w).stmin) := by
    unfold stepCall
    simp only
    rw [if_neg (by rintro ⟨-, -, h⟩; rw [hS.finit, hS.gtest] at h; linarith)]
    rw [dcstep_same_sign (y := (restore w).stmin) (by simp only [hS.fx]; exact le_rfl) (by simp only [hS.gx]; exact hg) hg
      (by
        rw [if_neg (by simp only [hS.gx]; exact lt_irrefl _)]
        unfold case4
        simp only [hS.br, hS.stx, lt_irrefl, Bool.false_eq_true, if_false, gt_iff_lt])]
    have e1 := hS.stx
    have e2 := hS.fx
    have e3 := hS.gx
    simp only [Option.bind_eq_bind, Option.bind_some, ← e1, ← e2, ← e3]
  obtain ⟨w', hw, hr⟩ := dcsrch_go hst ht hsc
  obtain ⟨F1, F2⟩ := finish_free (P := P) (x := (restore w).stmin) hS.br
  have hlo := hS.lo
  have hx2 : (finish P (restore w) (restore w).stmin).2 = x := by
    rw [F2, max_eq_left (by linarith)]
    rcases hS.at_ with h | h
    · rw [min_eq_right (by linarith), h]
    · rw [h, min_eq_left hmax]
  rw [hx2] at hw
  refine ⟨w', hw, ?_⟩
  rw [hr, F1]
  refine ⟨hS.br, hS.stage, hS.finit, hS.ginit, hS.gtest, hS.stx, hS.fx, hS.gx, ?_, ?_⟩
  · simp only [hS.stx]
    nlinarith
  · rcases hS.at_ with h | h
    · exact Or.inl h
    · right
      simp only [hS.stx, h]
      ring

/-- **C122 fails for a zero trial step**: whatever the function, if the trial step is 0 the search evaluates the starting point for ever.
The eigensolver passes a zero trial angle when its previous angle is 0 and the second derivative is not positive
(`C122_zero_guess`). -/
theorem C122_zero_refuted (P : Par) (φ : ℝ → ℝ × ℝ) (f0 df0 : ℝ) (w : Saved) (hφ : φ 0 = (f0, df0)) (h0 : P.stpmin = 0)
    (hmax : 0 < P.stpmax) (hft : 0 ≤ P.ftol ∧ P.ftol < 1) (hgt : 0 ≤ P.gtol ∧ P.gtol < 1) (hxt : 0 ≤ P.xtol) (hdf : df0 < 0) (n : ℕ) :
    linmin P φ n 0 f0 df0 w = .running := by
  unfold linmin
  rw [if_neg (not_lt.mpr hdf.le), if_neg hdf.ne]
  unfold linminDown
  obtain ⟨t1, w1, e1, -, -, e4⟩ := C24_start P 0 f0 df0 w
  obtain ⟨rfl, hw⟩ := e4 ⟨h0.le, hmax.le, hdf, hft.1, hgt.1, hxt, by rw [h0], by rw [h0]; exact hmax.le⟩
  rw [e1]
  refine loop_forever (Stuck P f0 df0 0 f0 df0) (fun w' hS => ?_) n w1 f0 df0 ?_
  · rw [hφ]
    have habs : |df0| = -df0 := abs_of_neg hdf
    exact stuck_step h0.le hmax.le (by simp) hdf (by rw [habs]; nlinarith [hgt.2]) (by rintro ⟨a, -⟩; linarith)
      (by rintro ⟨-, a⟩; nlinarith [hft.2]) hS
  · rw [hw]
    exact ⟨rfl, rfl, rfl, rfl, rfl, rfl, rfl, rfl, le_rfl, Or.inr rfl⟩

/-- The eigensolver's trial angle is zero if the previous angle is zero and the second derivative is not positive. -/
theorem C122_zero_guess (dE d2E : ℝ) (h : d2E ≤ 0) : thetaGuess dE d2E 0 = 0 := by
  unfold thetaGuess
  have h1 : d2E < 0 ∨ d2E = 0 := h.lt_or_eq
  simp only [abs_zero, neg_zero, ite_self, if_pos h1]

/-- A search started at the step limit, where the function is low enough but its slope is between the required one and that of
sufficient decrease, evaluates the limit for ever. -/
theorem limit_forever (P : Par) (φ : ℝ → ℝ × ℝ) (f0 df0 f g : ℝ) (w : Saved) (hφ : φ P.stpmax = (f, g)) (h0 : P.stpmin = 0)
    (hmax : 0 < P.stpmax) (hft : 0 ≤ P.ftol) (hgt : 0 ≤ P.gtol) (hxt : 0 ≤ P.xtol) (hdf : df0 < 0)
    (hf : f ≤ f0 + P.stpmax * (P.ftol * df0)) (hg : g < 0) (hg1 : P.ftol * df0 < g) (hg2 : P.gtol * (-df0) < |g|) (n : ℕ) :
    linmin P φ n P.stpmax f0 df0 w = .running := by
  unfold linmin
  rw [if_neg (not_lt.mpr hdf.le), if_neg hdf.ne]
  unfold linminDown
  obtain ⟨t1, w1, e1, -, -, e4⟩ := C24_start P P.stpmax f0 df0 w
  obtain ⟨rfl, hw⟩ := e4 ⟨by rw [h0]; exact hmax.le, le_rfl, hdf, hft, hgt, hxt, by rw [h0], by rw [h0]; exact hmax.le⟩
  rw [e1]
  cases n with
  | zero => rfl
  | succ n =>
    have hff : f ≤ f0 := by nlinarith [mul_nonneg hmax.le (mul_nonneg hft (neg_nonneg.mpr hdf.le))]
    have n1 : ¬ (P.stpmax = P.stpmax ∧ g ≤ P.ftol * df0) := by rintro ⟨-, h⟩; linarith
    have n2 : ∀ q : Prop, ¬ (P.stpmax = P.stpmin ∧ q) := by rintro q ⟨h, -⟩; linarith
    have hfirst : ∃ w2, dcsrch P .fg P.stpmax f g w1 = some (.fg, P.stpmax, w2) ∧ Stuck P f0 df0 P.stpmax f g (restore w2) := by
      obtain ⟨hst, ht⟩ := going (P := P) (f0 := f0) (g0 := df0) (x := P.stpmax) (f := f) (g := g) (l := restore w1) (by rw [hw]; rfl)
        (by rw [hw]; rfl) (by rw [hw]; rfl) (by rw [hw]; rfl) (by rw [hw]; rfl) hg hg2 n1 (n2 _)
      have hftp : 0 < P.ftol := by
        rcases hft.lt_or_eq with h | h
        · exact h
        · rw [← h] at hg1; linarith
      have hlt : f < f0 := by nlinarith [mul_pos hmax (mul_pos hftp (neg_pos.mpr hdf))]
      obtain ⟨s', hs, k1, k2, -⟩ := C25_step ⟨0, f0, df0, 0, f0, df0, P.stpmax, false⟩ f g 0 (P.stpmax + P.stpmax * 4)
        ⟨by simp only; nlinarith, by linarith, by simp, by simp, by simp⟩
      obtain ⟨k3, k4, -⟩ := dcstep_forward (by exact hdf) (by exact hmax) hg (by exact hff) rfl (by simp only; linarith) (by linarith) hs
      have k5 : s'.stx = P.stpmax ∧ s'.fx = f ∧ s'.dx = g := by
        rcases k2 with h | h
        · simp only [Prod.mk.injEq] at h
          rw [h.2.1, min_eq_right hff] at k1
          linarith
        · simpa only [Prod.mk.injEq] using h
      have hsc : stepCall (restore w1) P.stpmax f g = some ({ restore w1 with brackt := s'.brackt, stx := s'.stx, sty := s'.sty, fx := s'.fx, fy := s'.fy, gx := s'.dx, gy := s'.dy }, s'.stp) := by
        rw [hw]
        unfold stepCall
        simp only [initLocal]
        rw [if_neg (by rintro ⟨-, -, h⟩; linarith), hs]
        rfl
      obtain ⟨w2, d1, d2⟩ := dcsrch_go hst ht hsc
      obtain ⟨F1, F2⟩ := finish_free (P := P) (l := { restore w1 with brackt := s'.brackt, stx := s'.stx, sty := s'.sty, fx := s'.fx, fy := s'.fy, gx := s'.dx, gy := s'.dy }) (x := s'.stp) k3
      simp only at k4
      rw [F2, max_eq_left (by rw [h0]; linarith), min_eq_right k4.le] at d1
      refine ⟨w2, d1, ?_⟩
      rw [d2, F1, hw]
      refine ⟨k3, rfl, rfl, rfl, rfl, k5.1, k5.2.1, k5.2.2, ?_, Or.inl rfl⟩
      simp only [k5.1]
      nlinarith
    obtain ⟨w2, d1, d2⟩ := hfirst
    change loop P φ (n + 1) P.stpmax f0 df0 .fg w1 = .running
    rw [loop, if_pos rfl, hφ, d1]
    refine loop_forever (Stuck P f0 df0 P.stpmax f g) (fun w' hS => ?_) n w2 _ _ d2
    rw [hφ]
    exact stuck_step (by rw [h0]; exact hmax.le) le_rfl hf hg hg2 n1 (n2 _) hS

/-- The parabola of `C122_limit_refuted`. -/
noncomputable def limitPoly (x : ℝ) : ℝ × ℝ := (0.95 / (2 * Real.pi) * x ^ 2 - x, 0.95 / Real.pi * x - 1)

/-- **C122 fails at the step limit**: for a parabola, with the eigensolver's tolerances and limits, the previous angle π and the trial
angle computed from the exact first and second derivative, the search evaluates the limit for ever.  (The trace itself has period π,
which excludes this: `Solver.C122_eigensolver_partial`.) -/
theorem C122_limit_refuted (tol : ℝ) (htol : 0 ≤ tol) (w : Saved) (n : ℕ) :
    limitPoly 0 = (0, -1) ∧ (∀ x, HasDerivAt (fun y => (limitPoly y).1) (limitPoly x).2 x) ∧
    (∀ x, HasDerivAt (fun y => (limitPoly y).2) (0.95 / Real.pi) x) ∧
    linmin (solverPar tol (-1)) limitPoly n (thetaGuess (-1) (0.95 / Real.pi) Real.pi) 0 (-1) w = .running := by
  have hpi := Real.pi_pos
  have hne := hpi.ne'
  refine ⟨by norm_num [limitPoly], fun x => ?_, fun x => ?_, ?_⟩
  · have h := (((hasDerivAt_id x).pow 2).const_mul (0.95 / (2 * Real.pi))).sub (hasDerivAt_id x)
    unfold limitPoly
    refine h.congr_deriv ?_
    simp only [id, limitPoly]
    field_simp
    norm_num
    ring
  · have h := ((hasDerivAt_id x).const_mul (0.95 / Real.pi)).sub_const 1
    unfold limitPoly
    refine h.congr_deriv ?_
    simp
  · have hg : thetaGuess (-1) (0.95 / Real.pi) Real.pi = Real.pi := by
      unfold thetaGuess
      have h1 : ¬ ((0.95 : ℝ) / Real.pi < 0 ∨ (0.95 : ℝ) / Real.pi = 0) := by
        push Not
        have : (0 : ℝ) < 0.95 / Real.pi := by positivity
        exact ⟨this.le, this.ne'⟩
      have e : -(-1 : ℝ) / (0.95 / Real.pi) = Real.pi / 0.95 := by field_simp
      have h2 : |-(-1 : ℝ) / (0.95 / Real.pi)| ≥ Real.pi := by
        rw [e, abs_of_pos (by positivity), ge_iff_le, le_div_iff₀ (by norm_num)]
        linarith
      simp only [if_neg h1, if_pos h2]
      rw [if_neg (by norm_num), abs_of_pos hpi]
    have hs : (solverPar tol (-1)).stpmax = Real.pi := by
      simp only [solverPar]
      rw [if_neg (by norm_num)]
    have hm : (solverPar tol (-1)).gtol ≤ 1 / 1000000 := by
      simp only [solverPar]
      refine (min_le_right _ _).trans ?_
      norm_num
    have hf : (solverPar tol (-1)).ftol = 0.1 := rfl
    have := limit_forever (solverPar tol (-1)) limitPoly 0 (-1) (-0.525 * Real.pi) (-0.05) w
      (by
        rw [hs]
        unfold limitPoly
        refine Prod.ext ?_ ?_
        · simp only
          field_simp
          norm_num
        · simp only
          field_simp
          norm_num) rfl
      (by rw [hs]; exact hpi) (by rw [hf]; norm_num) (le_min htol (by positivity)) (by simp only [solverPar]; positivity) (by norm_num)
      (by rw [hs, hf]; linarith) (by norm_num) (by rw [hf]; norm_num) (by rw [abs_of_neg (by norm_num)]; linarith) n
    rw [hs] at this
    rw [hg]
    exact this

/-- Non-vacuity of `C122_linmin_partial`: the shifted parabola `(x - 1)²` on `[0, 3]`. -/
example : ∃ N, ∀ n ≥ N, linmin ⟨0.1, 0.001, 0.001, 0, 3⟩ (fun x => ((x - 1) ^ 2, 2 * (x - 1))) n 2 1 (-2) ⟨fun _ => 0, fun _ => 0⟩ ≠ .running := by
  refine C122_linmin_partial _ _ _ _ _ _ (by norm_num) rfl (by norm_num) (by norm_num) ?_ ?_ (by norm_num) (by norm_num)
  · have h := (((hasDerivAt_id (0 : ℝ)).sub_const 1).pow 2)
    refine h.congr_deriv ?_
    norm_num
  · exact Continuous.continuousAt (by fun_prop)

end Mpb.Linmin

namespace Mpb.Solver

open Matrix Linmin

open scoped ComplexOrder

variable {n : Type*} [Fintype n] {p : ℕ}

theorem rotated_pi (P Q R : Sq p) {t : ℝ} (ht : t = Real.pi ∨ t = -Real.pi) : rotated P Q R (Real.cos t) (Real.sin t) = P := by
  unfold rotated
  rcases ht with rfl | rfl <;> simp

/-- **C122** (partial, eigensolver): the exact line minimisation of an iteration of the eigensolver (without a Lagrange multiplier: MPB
never passes a constraint operator) ends after finitely many evaluations of the trace, for every Hermitian operator, every positive definite overlap
operator, every block of independent columns and every direction, if the previous angle is not zero.  Missing: previous angle zero
(`C122_zero_refuted`). -/
theorem C122_eigensolver_partial {A B : Matrix n n ℂ} (hA : A.IsHermitian) (hB : B.PosDef) (L : Matrix n n ℂ) (Y D : Matrix n (Fin p) ℂ)
    (prevTheta tol : ℝ) (w : Saved) {inv : Sq p → Option (Sq p)} (hinv : CholeskyInv inv) (hY : Function.Injective Y.mulVec)
    (hprev : prevTheta ≠ 0) :
    let d := traceData A B L Y D 0 0
    let U := d.YtBY⁻¹
    ∃ N, ∀ k ≥ N, linmin (solverPar tol (newtonDE d U)) (fun t => (traceFunc inv d t).getD (0, 0)) k
      (thetaGuess (newtonDE d U) (newtonD2E d U) prevTheta) (traceE d U) (newtonDE d U) w ≠ .running := by
  intro d U
  have hd : d.Herm := traceData_herm (L := L) hA hB.isHermitian Y D 0 0
  have hpd0 : d.YtBY.PosDef := by
    have := moved_posDef hB hY
    rwa [Matrix.mul_assoc] at this
  have hpd : (rotated d.YtBY d.DtBD d.symYtBD (Real.cos 0) (Real.sin 0)).PosDef := by rw [rotated_zero]; exact hpd0
  have hst : traceFunc inv d 0 = some (traceE d U, newtonDE d U) := C26_start hA hB Y D 0 0 hinv hY
  by_cases hdE : newtonDE d U = 0
  · refine ⟨0, fun k _ => ?_⟩
    unfold linmin
    rw [if_neg (by rw [hdE]; exact lt_irrefl _), if_pos hdE]
    simp
  have hop := posDef_open (continuous_rotated _ _ _) (fun x => rotated_herm hd.h4 hd.h5 hd.h6 _ _) hpd
  have hev : ∀ᶠ t in nhds (0 : ℝ), (traceFunc inv d t).getD (0, 0) = (objData d t, derData d t) := by
    filter_upwards [hop] with t ht
    rw [traceFunc_eq hinv hd ht]
    rfl
  have hder : HasDerivAt (fun t => ((traceFunc inv d t).getD (0, 0)).1) (newtonDE d U) 0 := by
    have h1 := objData_hasDeriv d 0 hpd.isUnit
    rw [derData_zero hd] at h1
    refine h1.congr_of_eventuallyEq ?_
    filter_upwards [hev] with t ht
    rw [ht]
  have hcont : ContinuousAt (fun t => ((traceFunc inv d t).getD (0, 0)).2) 0 := by
    refine (derData_deriv_zero hd hpd0.isUnit).continuousAt.congr ?_
    filter_upwards [hev] with t ht
    rw [ht]
  refine C122_linmin_partial (solverPar tol (newtonDE d U)) _ _ _ _ w (by simp only [hst, Option.getD_some]) rfl
    (by simp only [solverPar]; positivity) (by norm_num [solverPar]) hder hcont (thetaGuess_ne hdE hprev) ?_
  have hper : ∀ t, t = Real.pi ∨ t = -Real.pi → ((traceFunc inv d t).getD (0, 0)).1 = traceE d U := by
    intro t ht
    have hp : (rotated d.YtBY d.DtBD d.symYtBD (Real.cos t) (Real.sin t)).PosDef := by rw [rotated_pi _ _ _ ht]; exact hpd0
    rw [traceFunc_eq hinv hd hp]
    simp only [Option.getD_some]
    unfold objData traceE
    rw [rotated_pi _ _ _ ht, rotated_pi _ _ _ ht]
    have e1 : d.lag = 0 := rfl
    have e2 : d.dLag = 0 := rfl
    rw [e1, e2]
    simp [U]
  have hsm : (solverPar tol (newtonDE d U)).stpmax * ((solverPar tol (newtonDE d U)).ftol * newtonDE d U) < 0 ∧
      ((solverPar tol (newtonDE d U)).stpmax = Real.pi ∨ (solverPar tol (newtonDE d U)).stpmax = -Real.pi) := by
    have hpi := Real.pi_pos
    simp only [solverPar]
    split_ifs with h
    · exact ⟨by nlinarith [mul_pos hpi h], Or.inr rfl⟩
    · have : newtonDE d U < 0 := lt_of_le_of_ne (not_lt.mp h) hdE
      exact ⟨by nlinarith [mul_pos hpi (neg_pos.mpr this)], Or.inl rfl⟩
  rw [hper _ hsm.2]
  linarith [hsm.1]

/-- Non-vacuity: `Y = (e₀)`, `D = (e₁)` in `ℂ²`, a Hermitian operator that couples them, previous angle 1. -/
example : ∃ inv : Sq 1 → Option (Sq 1), CholeskyInv inv ∧ (Matrix.of ![![2, 1], ![1, 3]] : Matrix (Fin 2) (Fin 2) ℂ).IsHermitian ∧
    (1 : Matrix (Fin 2) (Fin 2) ℂ).PosDef ∧ Function.Injective (Matrix.of ![![1], ![0]] : Matrix (Fin 2) (Fin 1) ℂ).mulVec ∧ (1 : ℝ) ≠ 0 := by
  obtain ⟨inv, h⟩ := exists_choleskyInv 1
  refine ⟨inv, h, ?_, Matrix.PosDef.one, ?_, one_ne_zero⟩
  · ext i j
    fin_cases i <;> fin_cases j <;> simp
  · intro u v h
    funext i
    have hi : i = 0 := Subsingleton.elim _ _
    have h0 := congrFun h 0
    simp [Matrix.mulVec, dotProduct] at h0
    rw [hi]
    exact h0

/-- **C122 fails in the eigensolver when the previous angle is zero**: for `A = (2 -1; -1 2)`, `B = 1`, `Y = (e₀)`, `D = (e₁)` the trace is
`2 - sin 2θ`; its second derivative at 0 vanishes, so the trial angle is the previous angle, and the search never ends. -/
theorem C122_previous_angle_refuted {inv : Sq 1 → Option (Sq 1)} (hinv : CholeskyInv inv) (tol : ℝ) (htol : 0 ≤ tol) (w : Saved) (k : ℕ) :
    let A : Matrix (Fin 2) (Fin 2) ℂ := Matrix.of ![![2, -1], ![-1, 2]]
    let Y : Matrix (Fin 2) (Fin 1) ℂ := Matrix.of ![![1], ![0]]
    let D : Matrix (Fin 2) (Fin 1) ℂ := Matrix.of ![![0], ![1]]
    let d := traceData A 1 0 Y D 0 0
    let U := d.YtBY⁻¹
    newtonDE d U = -2 ∧ linmin (solverPar tol (newtonDE d U)) (fun t => (traceFunc inv d t).getD (0, 0)) k
      (thetaGuess (newtonDE d U) (newtonD2E d U) 0) (traceE d U) (newtonDE d U) w = .running := by
  intro A Y D d U
  have hA : A.IsHermitian := by
    ext i j
    fin_cases i <;> fin_cases j <;> simp [A]
  have hY : Function.Injective Y.mulVec := by
    intro u v h
    funext i
    have hi : i = 0 := Subsingleton.elim _ _
    have h0 := congrFun h 0
    simp [Y, Matrix.mulVec, dotProduct] at h0
    rw [hi]
    exact h0
  have e1 : d.YtBY = 1 := by
    ext i j
    fin_cases i; fin_cases j
    simp [d, traceData, Y, Matrix.mul_apply, Fin.sum_univ_two]
  have e2 : d.DtBD = 1 := by
    ext i j
    fin_cases i; fin_cases j
    simp [d, traceData, D, Matrix.mul_apply, Fin.sum_univ_two]
  have e3 : d.symYtBD = 0 := by
    ext i j
    fin_cases i; fin_cases j
    simp [d, traceData, D, Y, Matrix.mul_apply, Fin.sum_univ_two]
  have e4 : d.YtAY = (2 : ℂ) • 1 := by
    ext i j
    fin_cases i; fin_cases j
    simp [d, traceData, Y, A, Matrix.mul_apply, Fin.sum_univ_two]
  have e5 : d.DtAD = (2 : ℂ) • 1 := by
    ext i j
    fin_cases i; fin_cases j
    simp [d, traceData, D, A, Matrix.mul_apply, Fin.sum_univ_two]
  have e6 : d.symYtAD = (-1 : ℂ) • 1 := by
    ext i j
    fin_cases i; fin_cases j
    simp [d, traceData, D, Y, A, Matrix.mul_apply, Fin.sum_univ_two]
    norm_num
  have eU : U = 1 := by simp [U, e1]
  have l1 : d.lag = 0 := rfl
  have l2 : d.dLag = 0 := rfl
  have hdE : newtonDE d U = -2 := by
    unfold newtonDE reTrAtB
    simp [eU, e3, e4, e6, l1, l2]
  have hd2E : newtonD2E d U = 0 := by
    unfold newtonD2E reTrAtB
    simp [eU, e2, e3, e4, e5, l1, l2]
  refine ⟨hdE, ?_⟩
  have hst : traceFunc inv d 0 = some (traceE d U, newtonDE d U) := C26_start hA Matrix.PosDef.one Y D 0 0 hinv hY
  rw [C122_zero_guess _ _ hd2E.le]
  refine C122_zero_refuted _ _ _ _ w (by simp only [hst, Option.getD_some]) rfl ?_ ⟨?_, ?_⟩ ⟨?_, ?_⟩ ?_ (by rw [hdE]; norm_num) k
  · simp only [solverPar, hdE]
    rw [if_neg (by norm_num)]
    exact Real.pi_pos
  · norm_num [solverPar]
  · norm_num [solverPar]
  · exact le_min htol (by positivity)
  · exact lt_of_le_of_lt (min_le_right _ _) (by norm_num)
  · simp only [solverPar]
    positivity

end Mpb.Solver

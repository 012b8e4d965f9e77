import Verif.Linmin.StepProps
import Mathlib.Tactic.NormNum
import Mathlib.Analysis.Real.Pi.Bounds

/-!
# C24: the line search `dcsrch` and `linmin`
-/

namespace Mpb.Linmin

open Spec

/-- C24 (state): everything the search remembers survives the work arrays, whatever they contained before. -/
theorem C24_save_restore (l : Local) (w : Saved) : restore (save l w) = l := by
  cases l with
  | mk b => cases b <;> simp [restore, save]

theorem checkStart_cases (P : Par) (stp g : ℝ) :
    ((checkStart P stp g).isError = true ↔ ¬ ValidStart P stp g) ∧ ((checkStart P stp g).isError = false → checkStart P stp g = .start) := by
  unfold checkStart
  simp only
  constructor
  · constructor
    · intro h hv
      simp only [if_neg (not_lt.mpr hv.stp_ge), gt_iff_lt, if_neg (not_lt.mpr hv.stp_le), ge_iff_le, if_neg (not_le.mpr hv.descent),
        if_neg (not_lt.mpr hv.ftol), if_neg (not_lt.mpr hv.gtol), if_neg (not_lt.mpr hv.xtol), if_neg (not_lt.mpr hv.stpmin),
        if_neg (not_lt.mpr hv.stpmax)] at h
      exact absurd h (by decide)
    · intro hv
      split_ifs <;> first | rfl | (exfalso; apply hv; constructor <;> (first | exact le_of_not_gt ‹_› | exact lt_of_not_ge ‹_›))
  · split_ifs <;> simp [Task.isError]

/-- C24 (input errors): at `START` the search reports an error exactly if an argument is invalid; then nothing else is changed.
Otherwise it asks for an evaluation at the given step. -/
theorem C24_start (P : Par) (stp f g : ℝ) (w : Saved) :
    ∃ t w', dcsrch P .start stp f g w = some (t, stp, w') ∧
      (t.isError = true ↔ ¬ ValidStart P stp g) ∧ (t.isError = true → w' = w) ∧
      (ValidStart P stp g → t = .fg ∧ restore w' = initLocal P stp f g) := by
  obtain ⟨h1, h2⟩ := checkStart_cases P stp g
  unfold dcsrch
  simp only [if_true]
  cases he : (checkStart P stp g).isError with
  | true =>
    refine ⟨checkStart P stp g, w, by simp, h1, fun _ => rfl, fun hv => absurd (h1.mp he) (by simpa using hv)⟩
  | false =>
    have hv : ValidStart P stp g := by
      by_contra hc
      rw [h1.mpr hc] at he
      exact absurd he (by simp)
    refine ⟨.fg, save (initLocal P stp f g) w, by simp, ?_, by simp [Task.isError], fun _ => ⟨rfl, C24_save_restore _ _⟩⟩
    simp [Task.isError, hv]

theorem testTask_conv (P : Par) (l : Local) (stp f g : ℝ) :
    testTask P l stp f g = .conv ↔ f ≤ l.finit + stp * l.gtest ∧ |g| ≤ P.gtol * (-l.ginit) := by
  unfold testTask
  simp only
  constructor
  · intro h
    by_contra hc
    rw [if_neg hc] at h
    split_ifs at h <;> simp at h
  · intro h
    rw [if_pos h]

theorem testTask_warn (P : Par) (l : Local) (stp f g : ℝ) (t : Task) (h : testTask P l stp f g = t) (ht : t.isWarn = true) :
    (l.brackt = true ∧ (stp ≤ l.stmin ∨ stp ≥ l.stmax ∨ l.stmax - l.stmin ≤ P.xtol * l.stmax)) ∨
    (stp = P.stpmax ∧ f ≤ l.finit + stp * l.gtest) ∨ (stp = P.stpmin) := by
  subst h
  unfold testTask at ht
  simp only at ht
  split_ifs at ht <;> first | (simp [Task.isWarn] at ht; done) | tauto

theorem testTask_ne (P : Par) (l : Local) (stp f g : ℝ) : (testTask P l stp f g).isError = false ∧ testTask P l stp f g ≠ .start := by
  unfold testTask
  simp only
  split_ifs <;> simp [Task.isError]

/-- The call of `dcstep` keeps the two recorded points consistent and never raises the recorded best value. -/
theorem stepCall_spec {l l' : Local} {stp f g x' : ℝ} (h : stepCall l stp f g = some (l', x')) :
    l'.finit = l.finit ∧ l'.ginit = l.ginit ∧ l'.gtest = l.gtest ∧ l'.stage = l.stage ∧ l'.width = l.width ∧ l'.width1 = l.width1 ∧
    ((l'.stx = l.stx ∧ l'.fx = l.fx ∧ l'.gx = l.gx) ∨ (l'.stx = stp ∧ l'.fx = f ∧ l'.gx = g ∧ f ≤ l.fx)) ∧
    ((l'.sty = l.sty ∧ l'.fy = l.fy ∧ l'.gy = l.gy) ∨ (l'.sty = l.stx ∧ l'.fy = l.fx ∧ l'.gy = l.gx) ∨
      (l'.sty = stp ∧ l'.fy = f ∧ l'.gy = g)) := by
  unfold stepCall at h
  simp only at h
  split_ifs at h with hm
  · simp only [Option.bind_eq_bind, Option.bind_eq_some_iff] at h
    obtain ⟨s, hs, he⟩ := h
    obtain ⟨hdx, c1, c2, c3, c4⟩ := dcstep_shape hs
    simp only at c1 c2 c3 c4 hdx
    simp only [Option.some.injEq, Prod.mk.injEq] at he
    obtain ⟨rfl, -⟩ := he
    refine ⟨rfl, rfl, rfl, rfl, rfl, rfl, ?_, ?_⟩
    · rcases lt_or_ge (l.fx - l.stx * l.gtest) (f - stp * l.gtest) with hf | hf
      · obtain ⟨a1, a2, a3, -⟩ := c1 hf
        left
        simp only [a1, a2, a3]
        refine ⟨trivial, by ring, by ring⟩
      · obtain ⟨a1, a2, a3⟩ := c2 hf
        right
        simp only [a1, a2, a3]
        refine ⟨trivial, by ring, by ring, hm.2.1⟩
    · rcases lt_or_ge (l.fx - l.stx * l.gtest) (f - stp * l.gtest) with hf | hf
      · obtain ⟨-, -, -, a1, a2, a3, -⟩ := c1 hf
        right; right
        simp only [a1, a2, a3]
        refine ⟨trivial, by ring, by ring⟩
      · rcases lt_or_ge ((g - l.gtest) * (l.gx - l.gtest)) 0 with hg | hg
        · obtain ⟨a1, a2, a3, -⟩ := c3 hf hg
          right; left
          simp only [a1, a2, a3]
          refine ⟨trivial, by ring, by ring⟩
        · obtain ⟨a1, a2, a3, -⟩ := c4 hf hg
          left
          simp only [a1, a2, a3]
          refine ⟨trivial, by ring, by ring⟩
  · simp only [Option.bind_eq_bind, Option.bind_eq_some_iff] at h
    obtain ⟨s, hs, he⟩ := h
    obtain ⟨hdx, c1, c2, c3, c4⟩ := dcstep_shape hs
    simp only at c1 c2 c3 c4 hdx
    simp only [Option.some.injEq, Prod.mk.injEq] at he
    obtain ⟨rfl, -⟩ := he
    refine ⟨rfl, rfl, rfl, rfl, rfl, rfl, ?_, ?_⟩
    · rcases lt_or_ge l.fx f with hf | hf
      · obtain ⟨a1, a2, a3, -⟩ := c1 hf
        left
        exact ⟨a1, a2, a3⟩
      · obtain ⟨a1, a2, a3⟩ := c2 hf
        right
        exact ⟨a1, a2, a3, hf⟩
    · rcases lt_or_ge l.fx f with hf | hf
      · obtain ⟨-, -, -, a1, a2, a3, -⟩ := c1 hf
        right; right
        exact ⟨a1, a2, a3⟩
      · rcases lt_or_ge (g * l.gx) 0 with hg | hg
        · obtain ⟨a1, a2, a3, -⟩ := c3 hf hg
          right; left
          exact ⟨a1, a2, a3⟩
        · obtain ⟨a1, a2, a3, -⟩ := c4 hf hg
          left
          exact ⟨a1, a2, a3⟩

/-- Inside the limits, or the starting point. -/
def InLimits (P : Par) (x : ℝ) : Prop := (P.stpmin ≤ x ∧ x ≤ P.stpmax) ∨ x = 0

/-- The state of the search between two calls. -/
structure Inv (P : Par) (φ : ℝ → ℝ × ℝ) (f0 g0 : ℝ) (l : Local) (x : ℝ) : Prop where
  finit : l.finit = f0
  ginit : l.ginit = g0
  gtest : l.gtest = P.ftol * g0
  best : φ l.stx = (l.fx, l.gx)
  other : φ l.sty = (l.fy, l.gy)
  lower : l.fx ≤ f0
  stop : l.brackt = true → (x ≤ l.stmin ∨ x ≥ l.stmax ∨ l.stmax - l.stmin ≤ P.xtol * l.stmax) → x = l.stx
  limBest : InLimits P l.stx
  lim : InLimits P x

theorem finish_inv {P : Par} {φ : ℝ → ℝ × ℝ} {f0 g0 : ℝ} {l : Local} {x : ℝ} (hP : P.stpmin ≤ P.stpmax)
    (h1 : l.finit = f0) (h2 : l.ginit = g0) (h3 : l.gtest = P.ftol * g0) (h4 : φ l.stx = (l.fx, l.gx)) (h5 : φ l.sty = (l.fy, l.gy))
    (h6 : l.fx ≤ f0) (h7 : InLimits P l.stx) :
    Inv P φ f0 g0 (finish P l x).1 (finish P l x).2 ∧
    (finish P l x).1.fx = l.fx ∧ (finish P l x).1.stx = l.stx ∧ (finish P l x).1.stage = l.stage := by
  unfold finish
  simp only
  have hcl : ∀ y : ℝ, InLimits P (min (max y P.stpmin) P.stpmax) :=
    fun y => Or.inl ⟨le_min (le_max_right _ _) hP, min_le_right _ _⟩
  cases hb : l.brackt with
  | false =>
    simp only [hb, Bool.false_eq_true, false_and, if_false, or_self]
    refine ⟨⟨h1, h2, h3, h4, h5, h6, ?_, h7, hcl _⟩, by simp⟩
    simp [hb]
  | true =>
    simp only [hb, true_and, if_true]
    refine ⟨⟨h1, h2, h3, h4, h5, h6, ?_, h7, ?_⟩, by simp⟩
    · intro _
      split_ifs with hc hc' hc'
      · intro _; rfl
      · intro h; exact absurd (by tauto) hc'
      · intro _; rfl
      · intro h; exact absurd (by tauto) hc'
    · split_ifs
      · exact h7
      · exact hcl _
      · exact h7
      · exact hcl _

/-- One `FG` call from a consistent state. -/
theorem dcsrch_fg {P : Par} {φ : ℝ → ℝ × ℝ} {f0 g0 x : ℝ} {w : Saved} (hP : P.stpmin ≤ P.stpmax)
    (hI : Inv P φ f0 g0 (restore w) x) {t' : Task} {x' : ℝ} {w' : Saved}
    (h : dcsrch P .fg x (φ x).1 (φ x).2 w = some (t', x', w')) :
    Inv P φ f0 g0 (restore w') x' ∧ t'.isError = false ∧ t' ≠ .start ∧
    (restore w').fx ≤ (restore w).fx ∧
    (t' ≠ .fg → x' = x) ∧
    (t' = .conv ↔ (φ x).1 ≤ f0 + x * (P.ftol * g0) ∧ |(φ x).2| ≤ P.gtol * (-g0)) ∧
    (t'.isWarn = true → x = (restore w).stx ∨ (φ x).1 ≤ f0 + x * (P.ftol * g0) ∨ x = P.stpmin) := by
  unfold dcsrch at h
  simp only [reduceCtorEq, if_false] at h
  set l0 := restore w with hl0
  generalize hst : (if l0.stage = 1 ∧ (φ x).1 ≤ l0.finit + x * l0.gtest ∧ (φ x).2 ≥ 0 then (2 : ℤ) else l0.stage) = st at h
  set l : Local := { l0 with stage := st } with hl
  have hconv := testTask_conv P l x (φ x).1 (φ x).2
  have hne := testTask_ne P l x (φ x).1 (φ x).2
  have e1 : l.finit = f0 := hI.finit
  have e2 : l.ginit = g0 := hI.ginit
  have e3 : l.gtest = P.ftol * g0 := hI.gtest
  rw [e1, e2, e3] at hconv
  generalize htt : testTask P l x (φ x).1 (φ x).2 = tt at *
  have hwarn := testTask_warn P l x (φ x).1 (φ x).2 tt htt
  by_cases hstop : tt.isWarn = true ∨ tt = .conv
  · rw [if_pos hstop] at h
    simp only [Option.some.injEq, Prod.mk.injEq] at h
    obtain ⟨rfl, rfl, rfl⟩ := h
    rw [C24_save_restore]
    refine ⟨⟨hI.finit, hI.ginit, hI.gtest, hI.best, hI.other, hI.lower, hI.stop, hI.limBest, hI.lim⟩, hne.1, hne.2, le_refl _,
      fun _ => rfl, hconv, ?_⟩
    intro hw
    rcases hwarn hw with ⟨hb, hc⟩ | ⟨_, hc⟩ | hc
    · left; exact hI.stop hb hc
    · right; left; rw [e1, e3] at hc; exact hc
    · right; right; exact hc
  · rw [if_neg hstop] at h
    push Not at hstop
    simp only [Option.bind_eq_bind, Option.bind_eq_some_iff] at h
    obtain ⟨⟨l1, x1⟩, hsc, h⟩ := h
    simp only [Option.some.injEq, Prod.mk.injEq] at h
    obtain ⟨rfl, rfl, rfl⟩ := h
    obtain ⟨s1, s2, s3, s4, s5, s6, s7, s8⟩ := stepCall_spec hsc
    rw [C24_save_restore]
    have hbest : φ l1.stx = (l1.fx, l1.gx) := by
      rcases s7 with ⟨a, b, c⟩ | ⟨a, b, c, -⟩
      · rw [a, b, c]; exact hI.best
      · rw [a, b, c]
    have hother : φ l1.sty = (l1.fy, l1.gy) := by
      rcases s8 with ⟨a, b, c⟩ | ⟨a, b, c⟩ | ⟨a, b, c⟩
      · rw [a, b, c]; exact hI.other
      · rw [a, b, c]; exact hI.best
      · rw [a, b, c]
    have hfx : l1.fx ≤ l.fx := by
      rcases s7 with ⟨a, b, c⟩ | ⟨a, b, c, d⟩
      · rw [b]
      · rw [b]; exact d
    have hlb : InLimits P l1.stx := by
      rcases s7 with ⟨a, b, c⟩ | ⟨a, b, c, d⟩
      · rw [a]; exact hI.limBest
      · rw [a]; exact hI.lim
    obtain ⟨F1, F2, -⟩ := finish_inv (x := x1) hP (s1.trans e1) (s2.trans e2) (s3.trans e3) hbest hother (hfx.trans hI.lower) hlb
    refine ⟨F1, rfl, by simp, ?_, by simp, ?_, by simp [Task.isWarn]⟩
    · rw [F2]; exact hfx
    · constructor
      · intro h; simp at h
      · intro h; exact absurd (hconv.mpr h) hstop.2

/-- Every state of every run that is not an input error satisfies the invariant. -/
theorem run_inv {P : Par} {φ : ℝ → ℝ × ℝ} {f0 g0 x0 : ℝ} {w0 : Saved} (hφ : φ 0 = (f0, g0)) {t : Task} {x f g : ℝ} {w : Saved} {ev : List ℝ}
    (h : Run P φ f0 g0 x0 w0 t x f g w ev) (ht : t.isError = false) : ValidStart P x0 g0 ∧ Inv P φ f0 g0 (restore w) x := by
  induction h with
  | start h =>
    obtain ⟨t1, w1, h1, h2, h3, h4⟩ := C24_start P x0 f0 g0 w0
    rw [h1] at h
    simp only [Option.some.injEq, Prod.mk.injEq] at h
    obtain ⟨rfl, rfl, rfl⟩ := h
    have hv : ValidStart P x0 g0 := by
      by_contra hc
      rw [h2.mpr hc] at ht
      simp at ht
    refine ⟨hv, ?_⟩
    rw [(h4 hv).2]
    exact ⟨rfl, rfl, rfl, hφ, hφ, le_refl _, by simp [initLocal], Or.inr rfl, Or.inl ⟨hv.stp_ge, hv.stp_le⟩⟩
  | step hr h ih =>
    obtain ⟨hv, hI⟩ := ih rfl
    exact ⟨hv, (dcsrch_fg hv.stpmax hI h).1⟩

/-- C24 (convergence): the search reports `CONVERGENCE` exactly when the last evaluated step satisfies the sufficient decrease and the
curvature condition with respect to the starting point, and then that step is the one returned. -/
theorem C24_converged {P : Par} {φ : ℝ → ℝ × ℝ} {f0 g0 x0 : ℝ} {w0 : Saved} (hφ : φ 0 = (f0, g0)) {x f g : ℝ} {w : Saved} {ev : List ℝ}
    (h : Run P φ f0 g0 x0 w0 .fg x f g w ev) {t' : Task} {x' : ℝ} {w' : Saved}
    (hs : dcsrch P .fg x (φ x).1 (φ x).2 w = some (t', x', w')) :
    (t' = .conv ↔ StrongWolfe P f0 g0 x (φ x).1 (φ x).2) ∧ (t' = .conv → x' = x) ∧ t'.isError = false := by
  obtain ⟨hv, hI⟩ := run_inv hφ h rfl
  obtain ⟨-, h2, -, -, h5, h6, -⟩ := dcsrch_fg hv.stpmax hI hs
  refine ⟨?_, fun h => h5 (by rw [h]; simp), h2⟩
  rw [h6, StrongWolfe, abs_of_neg hv.descent]

/-- C24 (limits), partial: every step at which the function is evaluated, and every step returned, lies within the limits or is the
starting point 0.  (The full property, "lies within the limits", fails: see `C24_limits_refuted`.) -/
theorem C24_limits_partial {P : Par} {φ : ℝ → ℝ × ℝ} {f0 g0 x0 : ℝ} {w0 : Saved} (hφ : φ 0 = (f0, g0)) {t : Task} {x f g : ℝ} {w : Saved}
    {ev : List ℝ} (h : Run P φ f0 g0 x0 w0 t x f g w ev) (ht : t.isError = false) :
    ∀ y ∈ x :: ev, (P.stpmin ≤ y ∧ y ≤ P.stpmax) ∨ y = 0 := by
  induction h with
  | start h =>
    obtain ⟨-, hI⟩ := run_inv hφ (Run.start h) ht
    intro y hy
    simp only [List.mem_singleton] at hy
    rw [hy]
    exact hI.lim
  | step hr h ih =>
    obtain ⟨-, hI⟩ := run_inv hφ (Run.step hr h) ht
    intro y hy
    rcases List.mem_cons.mp hy with rfl | hy
    · exact hI.lim
    · exact ih rfl y hy

/-- C24 (limits): with the lower limit 0 that the eigensolver uses, every step evaluated or returned lies within the limits. -/
theorem C24_limits {P : Par} {φ : ℝ → ℝ × ℝ} {f0 g0 x0 : ℝ} {w0 : Saved} (hφ : φ 0 = (f0, g0)) (h0 : P.stpmin = 0) {t : Task} {x f g : ℝ}
    {w : Saved} {ev : List ℝ} (h : Run P φ f0 g0 x0 w0 t x f g w ev) (ht : t.isError = false) :
    ∀ y ∈ x :: ev, 0 ≤ y ∧ y ≤ P.stpmax := by
  obtain ⟨hv, -⟩ := run_inv hφ h ht
  intro y hy
  rcases C24_limits_partial hφ h ht y hy with ⟨h1, h2⟩ | rfl
  · rw [h0] at h1; exact ⟨h1, h2⟩
  · exact ⟨le_refl _, by rw [← h0]; exact hv.stpmax⟩

/-- C24 (best point): the recorded best value never increases from call to call, and the recorded best point carries its own function
value and derivative. -/
theorem C24_best {P : Par} {φ : ℝ → ℝ × ℝ} {f0 g0 x0 : ℝ} {w0 : Saved} (hφ : φ 0 = (f0, g0)) {x f g : ℝ} {w : Saved} {ev : List ℝ}
    (h : Run P φ f0 g0 x0 w0 .fg x f g w ev) {t' : Task} {x' : ℝ} {w' : Saved}
    (hs : dcsrch P .fg x (φ x).1 (φ x).2 w = some (t', x', w')) :
    (restore w').fx ≤ (restore w).fx ∧ φ (restore w').stx = ((restore w').fx, (restore w').gx) ∧
      φ (restore w').sty = ((restore w').fy, (restore w').gy) := by
  obtain ⟨hv, hI⟩ := run_inv hφ h rfl
  obtain ⟨h1, -, -, h4, -⟩ := dcsrch_fg hv.stpmax hI hs
  exact ⟨h4, h1.best, h1.other⟩

/-- How a run that has stopped ended: the returned step is the last one evaluated, and with the lower limit 0 its function value is not
above the starting value. -/
theorem run_stopped {P : Par} {φ : ℝ → ℝ × ℝ} {f0 g0 x0 : ℝ} {w0 : Saved} (hφ : φ 0 = (f0, g0)) (h0 : P.stpmin = 0) {t : Task} {x f g : ℝ}
    {w : Saved} {ev : List ℝ} (h : Run P φ f0 g0 x0 w0 t x f g w ev) (ht : t.isError = false) (hfg : t ≠ .fg) :
    φ x = (f, g) ∧ f ≤ f0 ∧ (t = .conv → StrongWolfe P f0 g0 x f g) := by
  cases h with
  | start h =>
    obtain ⟨t1, w1, h1, h2, h3, h4⟩ := C24_start P x0 f0 g0 w0
    rw [h1] at h
    simp only [Option.some.injEq, Prod.mk.injEq] at h
    obtain ⟨rfl, rfl, rfl⟩ := h
    have hv : ValidStart P x0 g0 := by
      by_contra hc
      rw [h2.mpr hc] at ht
      simp at ht
    exact absurd (h4 hv).1 hfg
  | @step x1 f1 g1 w1 ev1 _ _ _ hr h =>
    obtain ⟨hv, hI⟩ := run_inv hφ hr rfl
    obtain ⟨-, e2, e3, -, e5, e6, e7⟩ := dcsrch_fg hv.stpmax hI h
    have hx := e5 hfg
    subst hx
    have hlim : 0 ≤ x := by
      rcases hI.lim with ⟨a, -⟩ | a
      · rw [h0] at a; exact a
      · rw [a]
    have hdec : (φ x).1 ≤ f0 + x * (P.ftol * g0) → (φ x).1 ≤ f0 := by
      intro hh
      have : P.ftol * g0 ≤ 0 := mul_nonpos_of_nonneg_of_nonpos hv.ftol hv.descent.le
      have : x * (P.ftol * g0) ≤ 0 := mul_nonpos_of_nonneg_of_nonpos hlim this
      linarith
    refine ⟨rfl, ?_, ?_⟩
    · by_cases hc : t = .conv
      · exact hdec (e6.mp hc).1
      · have hw : t.isWarn = true := by
          cases t <;> simp_all [Task.isWarn, Task.isError]
        rcases e7 hw with h | h | h
        · rw [h, hI.best]; exact hI.lower
        · exact hdec h
        · rw [h, h0, hφ]
    · intro hc
      have := e6.mp hc
      rw [StrongWolfe, abs_of_neg hv.descent]
      exact this

/-- The loop of `linmin` follows the protocol. -/
theorem loop_run {P : Par} {φ : ℝ → ℝ × ℝ} {f0 g0 x0 : ℝ} {w0 : Saved} (hφ : φ 0 = (f0, g0)) (n : ℕ) :
    ∀ {t : Task} {x f g : ℝ} {w : Saved} {ev : List ℝ}, Run P φ f0 g0 x0 w0 t x f g w ev → t.isError = false →
      loop P φ n x f g t w ≠ .failure ∧
      ∀ {x' f' g' : ℝ} {t' : Task}, loop P φ n x f g t w = .done x' f' g' t' →
        t'.isError = false ∧ t' ≠ .fg ∧ ∃ w' ev', Run P φ f0 g0 x0 w0 t' x' f' g' w' ev' := by
  induction n with
  | zero => intro t x f g w ev _ _; simp [loop]
  | succ n ih =>
    intro t x f g w ev hr ht
    rw [loop]
    by_cases hfg : t = .fg
    · subst hfg
      rw [if_pos rfl]
      cases hd : dcsrch P .fg x (φ x).1 (φ x).2 w with
      | none => simp
      | some r =>
        obtain ⟨t1, x1, w1⟩ := r
        simp only
        obtain ⟨hv, hI⟩ := run_inv hφ hr rfl
        obtain ⟨-, e2, -⟩ := dcsrch_fg hv.stpmax hI hd
        exact ih (Run.step hr hd) e2
    · rw [if_neg hfg, ht]
      simp only [Bool.false_eq_true, if_false]
      refine ⟨by simp, ?_⟩
      intro x' f' g' t' h
      simp only [Out.done.injEq] at h
      obtain ⟨rfl, rfl, rfl, rfl⟩ := h
      exact ⟨ht, hfg, w, ev, hr⟩

theorem linminDown_spec {P : Par} {φ : ℝ → ℝ × ℝ} {f0 g0 xg : ℝ} {w0 : Saved} (hφ : φ 0 = (f0, g0)) (h0 : P.stpmin = 0) (n : ℕ) :
    (linminDown P φ (n + 1) xg f0 g0 w0 = .failure ↔ ¬ ValidStart P xg g0) ∧
    ∀ (x f g : ℝ) (t : Task), linminDown P φ (n + 1) xg f0 g0 w0 = .done x f g t →
      φ x = (f, g) ∧ f ≤ f0 ∧ (0 ≤ x ∧ x ≤ P.stpmax) ∧ (t = .conv → StrongWolfe P f0 g0 x f g) := by
  obtain ⟨t1, w1, h1, h2, h3, h4⟩ := C24_start P xg f0 g0 w0
  have hR : Run P φ f0 g0 xg w0 t1 xg f0 g0 w1 [] := Run.start h1
  unfold linminDown
  rw [h1]
  simp only
  cases he : t1.isError with
  | true =>
    have hfg : t1 ≠ .fg := by rintro rfl; simp [Task.isError] at he
    have hl : loop P φ (n + 1) xg f0 g0 t1 w1 = .failure := by
      rw [loop, if_neg hfg, he]; rfl
    rw [hl]
    exact ⟨by simp [h2.mp he], by simp⟩
  | false =>
    have hv : ValidStart P xg g0 := by
      by_contra hc
      rw [h2.mpr hc] at he
      simp at he
    obtain ⟨k1, k2⟩ := loop_run hφ (n + 1) hR he
    refine ⟨by simp [k1, hv], ?_⟩
    intro x f g t hd
    obtain ⟨m1, m2, w', ev', m3⟩ := k2 hd
    obtain ⟨r1, r2, r3⟩ := run_stopped hφ h0 m3 m1 m2
    exact ⟨r1, r2, C24_limits hφ h0 m3 m1 x (by simp), r3⟩

/-- C24 (`linmin`): with the limits 0 and `x_max` (of either sign), for every function whose value and slope at 0 are the ones passed in,
whatever the number of evaluations: if `linmin` returns, the reported value and derivative are those of the function at the returned step,
the value is not above the starting value, the step is between 0 and the limit and not uphill, and on convergence the step satisfies the
sufficient decrease and curvature conditions. -/
theorem C24_linmin (P : Par) (φ : ℝ → ℝ × ℝ) (n : ℕ) (xg f0 df0 : ℝ) (w : Saved) (hφ : φ 0 = (f0, df0)) (h0 : P.stpmin = 0)
    {x f g : ℝ} {t : Task} (h : linmin P φ (n + 1) xg f0 df0 w = .done x f g t) :
    φ x = (f, g) ∧ f ≤ f0 ∧ Between 0 P.stpmax x ∧ x * df0 ≤ 0 ∧ (t = .conv → 0 ≤ P.gtol → StrongWolfe P f0 df0 x f g) := by
  unfold linmin at h
  rcases lt_trichotomy df0 0 with hd | hd | hd
  · rw [if_neg (by linarith), if_neg hd.ne] at h
    obtain ⟨a, b, ⟨c1, c2⟩, d⟩ := (linminDown_spec hφ h0 n).2 _ _ _ _ h
    refine ⟨a, b, ⟨(min_le_left _ _).trans c1, c2.trans (le_max_right _ _)⟩, mul_nonpos_of_nonneg_of_nonpos c1 hd.le, fun h _ => d h⟩
  · subst hd
    rw [if_neg (lt_irrefl _), if_pos rfl] at h
    simp only [Out.done.injEq] at h
    obtain ⟨rfl, rfl, rfl, rfl⟩ := h
    refine ⟨hφ, le_refl _, ⟨min_le_left _ _, le_max_left _ _⟩, by simp, ?_⟩
    intro _ _
    unfold StrongWolfe
    simp
  · rw [if_pos hd] at h
    have hφ' : reverse φ 0 = (f0, -df0) := by simp [reverse, hφ]
    generalize hP' : ({ P with stpmin := -P.stpmin, stpmax := -P.stpmax } : Par) = P' at h
    have h0' : P'.stpmin = 0 := by rw [← hP']; simp [h0]
    have K := (linminDown_spec (xg := -xg) (w0 := w) hφ' h0' n).2
    generalize linminDown P' (reverse φ) (n + 1) (-xg) f0 (-df0) w = o at h K
    cases o with
    | done x1 f1 g1 t1 =>
      simp only [Out.done.injEq] at h
      obtain ⟨rfl, rfl, rfl, rfl⟩ := h
      obtain ⟨a, b, ⟨c1, c2⟩, d⟩ := K _ _ _ _ rfl
      have hs : P'.stpmax = -P.stpmax := by rw [← hP']
      rw [hs] at c2
      refine ⟨?_, b, ⟨(min_le_right _ _).trans (by linarith), (by linarith : -x1 ≤ 0).trans (le_max_left _ _)⟩, by nlinarith, ?_⟩
      · unfold reverse at a
        simp only [Prod.mk.injEq] at a
        rw [Prod.ext_iff]
        exact ⟨a.1, by simp only; linarith [a.2]⟩
      · intro hc _
        obtain ⟨e1, e2⟩ := d hc
        have hf : P'.ftol = P.ftol := by rw [← hP']
        have hg : P'.gtol = P.gtol := by rw [← hP']
        rw [hf] at e1
        rw [hg, abs_neg] at e2
        refine ⟨by linarith [e1, mul_neg x1 (P.ftol * df0)], by rw [abs_neg]; exact e2⟩
    | running => simp at h
    | nan => simp at h
    | failure => simp at h

/-- C24 (`linmin` aborts): the check in `linmin` fails exactly if an argument is invalid for the direction in which the function
decreases. -/
theorem C24_failure (P : Par) (φ : ℝ → ℝ × ℝ) (n : ℕ) (xg f0 df0 : ℝ) (w : Saved) (hφ : φ 0 = (f0, df0)) (h0 : P.stpmin = 0) :
    linmin P φ (n + 1) xg f0 df0 w = .failure ↔
      (df0 < 0 ∧ ¬ (0 ≤ xg ∧ xg ≤ P.stpmax ∧ 0 ≤ P.ftol ∧ 0 ≤ P.gtol ∧ 0 ≤ P.xtol)) ∨
      (0 < df0 ∧ ¬ (P.stpmax ≤ xg ∧ xg ≤ 0 ∧ 0 ≤ P.ftol ∧ 0 ≤ P.gtol ∧ 0 ≤ P.xtol)) := by
  unfold linmin
  rcases lt_trichotomy df0 0 with hd | hd | hd
  · rw [if_neg (by linarith), if_neg hd.ne, (linminDown_spec hφ h0 n).1]
    constructor
    · intro hn
      left
      refine ⟨hd, fun hv => hn ⟨by rw [h0]; exact hv.1, hv.2.1, hd, hv.2.2.1, hv.2.2.2.1, hv.2.2.2.2, h0.ge, by rw [h0]; linarith [hv.1, hv.2.1]⟩⟩
    · rintro (⟨-, hn⟩ | ⟨h, -⟩) hv
      · exact hn ⟨by have := hv.stp_ge; rwa [h0] at this, hv.stp_le, hv.ftol, hv.gtol, hv.xtol⟩
      · linarith
  · subst hd
    rw [if_neg (lt_irrefl _), if_pos rfl]
    simp
  · rw [if_pos hd]
    have hφ' : reverse φ 0 = (f0, -df0) := by simp [reverse, hφ]
    generalize hP' : ({ P with stpmin := -P.stpmin, stpmax := -P.stpmax } : Par) = P'
    have h0' : P'.stpmin = 0 := by rw [← hP']; simp [h0]
    have hs : P'.stpmax = -P.stpmax := by rw [← hP']
    have hf : P'.ftol = P.ftol := by rw [← hP']
    have hg : P'.gtol = P.gtol := by rw [← hP']
    have hx : P'.xtol = P.xtol := by rw [← hP']
    have K := (linminDown_spec (xg := -xg) (w0 := w) hφ' h0' n).1
    refine Iff.trans (b := linminDown P' (reverse φ) (n + 1) (-xg) f0 (-df0) w = .failure) ?_ ?_
    · cases linminDown P' (reverse φ) (n + 1) (-xg) f0 (-df0) w <;> simp
    rw [K]
    constructor
    · intro hn
      right
      refine ⟨hd, fun hv => hn ⟨by rw [h0']; linarith [hv.2.1], by rw [hs]; linarith [hv.1], by linarith, by rw [hf]; exact hv.2.2.1,
        by rw [hg]; exact hv.2.2.2.1, by rw [hx]; exact hv.2.2.2.2, h0'.ge, by rw [h0', hs]; linarith [hv.1, hv.2.1]⟩⟩
    · rintro (⟨h, -⟩ | ⟨-, hn⟩) hv
      · linarith
      · have a1 := hv.stp_ge
        have a2 := hv.stp_le
        have a3 := hv.ftol
        have a4 := hv.gtol
        have a5 := hv.xtol
        rw [h0'] at a1
        rw [hs] at a2
        rw [hf] at a3
        rw [hg] at a4
        rw [hx] at a5
        exact hn ⟨by linarith, by linarith, a3, a4, a5⟩

/-- The parameters with which the eigensolver calls `linmin`, eigensolver.c:733-737. -/
noncomputable def solverPar (tol dE : ℝ) : Par :=
  { ftol := 0.1, gtol := min tol (10 ^ (-6 : ℤ)), xtol := 10 ^ (-14 : ℤ), stpmin := 0, stpmax := open Classical in if dE > 0 then -Real.pi else Real.pi }

/-- C24 (eigensolver): the trial angle the eigensolver computes is always acceptable, so that the line minimisation never aborts with
"linmin failure"; the angle it returns never trips "converged out of bounds!", can serve as the next previous angle, and never raises the
trace. -/
theorem C24_eigensolver (φ : ℝ → ℝ × ℝ) (n : ℕ) (E dE d2E prevTheta tol theta : ℝ) (w : Saved) (hφ : φ 0 = (E, dE)) (htol : 0 ≤ tol)
    (hprev : |prevTheta| ≤ Real.pi) (hg : thetaGuess dE d2E prevTheta = theta) :
    linmin (solverPar tol dE) φ (n + 1) theta E dE w ≠ .failure ∧
    ∀ {x f g : ℝ} {t : Task}, linmin (solverPar tol dE) φ (n + 1) theta E dE w = .done x f g t → |x| ≤ Real.pi ∧ φ x = (f, g) ∧ f ≤ E := by
  have h0 : (solverPar tol dE).stpmin = 0 := rfl
  have hpi := Real.pi_pos
  constructor
  · rw [Ne, C24_failure _ _ _ _ _ _ _ hφ h0]
    unfold thetaGuess at hg
    have hft : (0 : ℝ) ≤ (solverPar tol dE).ftol := by norm_num [solverPar]
    have hgt : (0 : ℝ) ≤ (solverPar tol dE).gtol := le_min htol (by positivity)
    have hxt : (0 : ℝ) ≤ (solverPar tol dE).xtol := by simp only [solverPar]; positivity
    have hab := abs_nonneg prevTheta
    rintro (⟨hd, hn⟩ | ⟨hd, hn⟩)
    · apply hn
      have hng : ¬ dE > 0 := by linarith
      have hs : (solverPar tol dE).stpmax = Real.pi := by simp only [solverPar, if_neg hng]
      rw [hs]
      simp only [if_neg hng] at hg
      refine ⟨?_, ?_, hft, hgt, hxt⟩
      · rw [← hg]
        split_ifs
        all_goals first
          | exact hab
          | (rename_i h2 _; push Not at h2; exact div_nonneg (by linarith) h2.1)
      · rw [← hg]
        split_ifs
        all_goals first
          | exact hprev
          | (rename_i h; push Not at h; exact (le_abs_self _).trans h.le)
    · apply hn
      have hs : (solverPar tol dE).stpmax = -Real.pi := by simp only [solverPar, if_pos hd]
      rw [hs]
      simp only [if_pos hd] at hg
      refine ⟨?_, ?_, hft, hgt, hxt⟩
      · rw [← hg]
        split_ifs
        all_goals first
          | linarith
          | (rename_i h; push Not at h; have := (neg_abs_le (-dE / d2E)); linarith)
      · rw [← hg]
        split_ifs
        all_goals first
          | linarith
          | (rename_i h2 _; push Not at h2; exact div_nonpos_of_nonpos_of_nonneg (by linarith) h2.1)
  · intro x f g t h
    obtain ⟨a, b, c, -, -⟩ := C24_linmin _ _ _ _ _ _ _ hφ h0 h
    refine ⟨?_, a, b⟩
    unfold Between at c
    simp only [solverPar] at c
    split_ifs at c with hd
    · rw [min_eq_right (by linarith), max_eq_left (by linarith)] at c
      exact abs_le.mpr ⟨c.1, by linarith [c.2]⟩
    · rw [min_eq_left (by linarith), max_eq_right (by linarith)] at c
      exact abs_le.mpr ⟨by linarith [c.1], c.2⟩

/-! ### Concrete runs -/

/-- `restore (save ..)` at a concrete step of a search on `x² - 2x` from the guess 1: convergence after one evaluation.  This meets the
hypotheses of `C24_linmin`, `C24_converged`, `C24_limits`. -/
theorem parabola_run (w : Saved) :
    linmin ⟨0.1, 10 ^ (-6 : ℤ), 10 ^ (-14 : ℤ), 0, 3⟩ (fun x => (x ^ 2 - 2 * x, 2 * x - 2)) 5 1 0 (-2) w = .done 1 (-1) 0 .conv := by
  have hv : ValidStart ⟨0.1, 10 ^ (-6 : ℤ), 10 ^ (-14 : ℤ), 0, 3⟩ 1 (-2) := by constructor <;> norm_num
  obtain ⟨t, w', h1, -, -, h4⟩ := C24_start ⟨0.1, 10 ^ (-6 : ℤ), 10 ^ (-14 : ℤ), 0, 3⟩ 1 0 (-2) w
  obtain ⟨rfl, hw⟩ := h4 hv
  have hphi : ((fun x : ℝ => (x ^ 2 - 2 * x, 2 * x - 2)) 0) = ((0 : ℝ), (-2 : ℝ)) := by norm_num
  have hR : Run ⟨0.1, 10 ^ (-6 : ℤ), 10 ^ (-14 : ℤ), 0, 3⟩ (fun x => (x ^ 2 - 2 * x, 2 * x - 2)) 0 (-2) 1 w .fg 1 0 (-2) w' [] := Run.start h1
  have htt : testTask ⟨0.1, 10 ^ (-6 : ℤ), 10 ^ (-14 : ℤ), 0, 3⟩ (initLocal ⟨0.1, 10 ^ (-6 : ℤ), 10 ^ (-14 : ℤ), 0, 3⟩ 1 0 (-2)) 1 (-1) 0 = .conv := by
    rw [testTask_conv]
    norm_num [initLocal]
  have hstep : ∃ w'', dcsrch ⟨0.1, 10 ^ (-6 : ℤ), 10 ^ (-14 : ℤ), 0, 3⟩ .fg 1 (-1) 0 w' = some (.conv, 1, w'') := by
    have hl : testTask ⟨0.1, 10 ^ (-6 : ℤ), 10 ^ (-14 : ℤ), 0, 3⟩
        { initLocal ⟨0.1, 10 ^ (-6 : ℤ), 10 ^ (-14 : ℤ), 0, 3⟩ 1 0 (-2) with stage := 2 } 1 (-1) 0 = .conv := htt
    refine ⟨save { initLocal ⟨0.1, 10 ^ (-6 : ℤ), 10 ^ (-14 : ℤ), 0, 3⟩ 1 0 (-2) with stage := 2 } w', ?_⟩
    unfold dcsrch
    simp only [reduceCtorEq, if_false, hw]
    have hc : (initLocal ⟨0.1, 10 ^ (-6 : ℤ), 10 ^ (-14 : ℤ), 0, 3⟩ 1 0 (-2)).stage = 1 ∧
        (-1 : ℝ) ≤ (initLocal ⟨0.1, 10 ^ (-6 : ℤ), 10 ^ (-14 : ℤ), 0, 3⟩ 1 0 (-2)).finit +
          1 * (initLocal ⟨0.1, 10 ^ (-6 : ℤ), 10 ^ (-14 : ℤ), 0, 3⟩ 1 0 (-2)).gtest ∧ (0 : ℝ) ≥ 0 := by norm_num [initLocal]
    simp only [if_pos hc, hl, or_true, if_true]
  obtain ⟨w'', hstep⟩ := hstep
  have e1 : ((1 : ℝ) ^ 2 - 2 * 1) = -1 := by norm_num
  have e2 : ((2 : ℝ) * 1 - 2) = 0 := by norm_num
  unfold linmin
  rw [if_neg (by norm_num), if_neg (by norm_num)]
  unfold linminDown
  rw [h1]
  simp only
  rw [loop, if_pos rfl]
  simp only [e1, e2, hstep]
  rw [loop, if_neg (by simp)]
  simp [Task.isError]

example (w : Saved) : (-1 : ℝ) ≤ 0 ∧ StrongWolfe ⟨0.1, 10 ^ (-6 : ℤ), 10 ^ (-14 : ℤ), 0, 3⟩ 0 (-2) 1 (-1) 0 := by
  have h := C24_linmin _ _ 4 _ _ _ w (by norm_num) rfl (parabola_run w)
  exact ⟨h.2.1, h.2.2.2.2 rfl (by positivity)⟩

/-- The trial angle of `C24_eigensolver` for `E(θ)` with `dE = -2`, `d2E = 2`: the hypotheses are met. -/
example : thetaGuess (-2) 2 0.5 = 1 ∧ |(0.5 : ℝ)| ≤ Real.pi := by
  have hpi := Real.pi_gt_three
  constructor
  · unfold thetaGuess
    have h1 : ¬ ((2 : ℝ) < 0 ∨ (2 : ℝ) = 0) := by norm_num
    have h2 : (- -2 / 2 : ℝ) = 1 := by norm_num
    have h3 : ¬ (|(1 : ℝ)| ≥ Real.pi) := by rw [abs_one]; linarith
    simp only [if_neg h1, h2, if_neg h3]
  · rw [abs_of_pos (by norm_num)]
    linarith

/-- C24 (limits) fails in general: with the lower limit 1/2 the search can ask for an evaluation at the step 0, below the limit: if the first
trial step is higher than the start and the relative tolerance is met, the search goes back to the starting point. -/
theorem C24_limits_refuted : ∃ (P : Par) (φ : ℝ → ℝ × ℝ) (w0 w : Saved) (f g : ℝ) (ev : List ℝ),
    ValidStart P 1 (-1) ∧ φ 0 = (0, -1) ∧ Run P φ 0 (-1) 1 w0 .fg 0 f g w ev ∧ (0 : ℝ) < P.stpmin := by
  let P : Par := ⟨0.1, 0.5, 1, 0.5, 2⟩
  let φ : ℝ → ℝ × ℝ := fun x => (2 * x ^ 2 - x, 4 * x - 1)
  let w0 : Saved := ⟨fun _ => 0, fun _ => 0⟩
  have hv : ValidStart P 1 (-1) := by constructor <;> norm_num [P]
  obtain ⟨t, w1, h1, -, -, h4⟩ := C24_start P 1 0 (-1) w0
  obtain ⟨rfl, hw⟩ := h4 hv
  have hR : Run P φ 0 (-1) 1 w0 .fg 1 0 (-1) w1 [] := Run.start h1
  have hphi : φ 1 = (1, 3) := by norm_num [φ]
  have hs : ∃ w2, dcsrch P .fg 1 (φ 1).1 (φ 1).2 w1 = some (.fg, 0, w2) := by
    rw [hphi]
    unfold dcsrch
    simp only [reduceCtorEq, if_false, hw]
    have hc : ¬ ((initLocal P 1 0 (-1)).stage = 1 ∧ (1 : ℝ) ≤ (initLocal P 1 0 (-1)).finit + 1 * (initLocal P 1 0 (-1)).gtest ∧ (3 : ℝ) ≥ 0) := by
      norm_num [initLocal, P]
    simp only [if_neg hc]
    have htt : testTask P (initLocal P 1 0 (-1)) 1 1 3 = .fg := by
      unfold testTask
      norm_num [initLocal, P]
    have e : ({ initLocal P 1 0 (-1) with stage := (initLocal P 1 0 (-1)).stage } : Local) = initLocal P 1 0 (-1) := rfl
    rw [e, htt]
    simp only [Task.isWarn, Bool.false_eq_true, reduceCtorEq, or_self, if_false]
    have hpre : DocPre ⟨0, 0, -1, 0, 0, -1, 1, false⟩ 0 5 := by constructor <;> simp
    obtain ⟨s', hd, -⟩ := C25_step _ 1 3 0 5 hpre
    obtain ⟨-, c1, -⟩ := dcstep_shape hd
    obtain ⟨a1, a2, a3, a4, a5, a6, a7⟩ := c1 (by norm_num)
    simp only at a1 a4
    have hm : ¬ ((initLocal P 1 0 (-1)).stage = 1 ∧ (1 : ℝ) ≤ (initLocal P 1 0 (-1)).fx ∧
        (1 : ℝ) > (initLocal P 1 0 (-1)).finit + 1 * (initLocal P 1 0 (-1)).gtest) := by norm_num [initLocal, P]
    have hstp : (1 : ℝ) + 1 * 4 = 5 := by norm_num
    have hcall : stepCall (initLocal P 1 0 (-1)) 1 1 3 = some ({ initLocal P 1 0 (-1) with
        brackt := s'.brackt, stx := s'.stx, sty := s'.sty, fx := s'.fx, fy := s'.fy, gx := s'.dx, gy := s'.dy }, s'.stp) := by
      unfold stepCall
      simp only [if_neg hm]
      simp only [initLocal, hstp, hd, Option.bind_eq_bind, Option.bind_some]
    rw [hcall]
    simp only [Option.bind_eq_bind, Option.bind_some]
    have hf : (finish P { initLocal P 1 0 (-1) with
        brackt := s'.brackt, stx := s'.stx, sty := s'.sty, fx := s'.fx, fy := s'.fy, gx := s'.dx, gy := s'.dy } s'.stp).2 = 0 := by
      unfold finish
      simp only [a7, if_true, true_and, a1, a4]
      rw [if_pos]
      right
      norm_num [P]
    exact ⟨_, by rw [hf]⟩
  obtain ⟨w2, hs⟩ := hs
  exact ⟨P, φ, w0, w2, _, _, _, hv, by norm_num [φ], Run.step hR hs, by norm_num [P]⟩

/-- The polynomial of `C24_nan_refuted` and its derivative. -/
noncomputable def nanPoly (x : ℝ) : ℝ × ℝ :=
  (-x + 17661 / 8000 * x ^ 2 - 45339 / 20000 * x ^ 3 + 9763 / 10000 * x ^ 4 - 729 / 5000 * x ^ 5,
   -1 + 2 * (17661 / 8000) * x - 3 * (45339 / 20000) * x ^ 2 + 4 * (9763 / 10000) * x ^ 3 - 5 * (729 / 5000) * x ^ 4)

/-- Parameters of the eigensolver with tolerance `10⁻⁷` and a negative slope. -/
noncomputable def nanPar : Par := ⟨0.1, 10 ^ (-7 : ℤ), 10 ^ (-14 : ℤ), 0, Real.pi⟩

theorem nan_first : ∃ s', dcstep ⟨0, 0, -1, 0, 0, -1, 1 / 2, false⟩ (-175 / 1000) (-5 / 100) 0 (5 / 2) = some s' ∧
    s' = ⟨1 / 2, -175 / 1000, -5 / 100, 0, 0, -1, 5 / 2, false⟩ := by
  have hc3 : case3cubic ⟨0, 0, -1, 0, 0, -1, 1 / 2, false⟩ (-175 / 1000) (-5 / 100) 0 (5 / 2) = some (5 / 2) := by
    unfold case3cubic
    simp only
    rw [cdiv_eq (by norm_num)]
    simp only [Option.bind_eq_bind, Option.bind_some]
    have e : (0 - -175 / 1000 : ℝ) * 3 / (1 / 2 - 0) + -1 + -5 / 100 = 0 := by norm_num
    rw [e]
    have es : max (max |(0 : ℝ)| |(-1 : ℝ)|) |(-5 / 100 : ℝ)| = 1 := by
      rw [abs_zero, abs_neg, abs_one, max_eq_right (by norm_num : (0 : ℝ) ≤ 1), abs_of_neg (by norm_num), max_eq_left (by norm_num)]
    rw [es, cdiv_eq one_ne_zero, cdiv_eq one_ne_zero, cdiv_eq one_ne_zero]
    simp only [Option.bind_some]
    have e2 : max 0 ((0 : ℝ) / 1 * (0 / 1) - -1 / 1 * (-5 / 100 / 1)) = 0 := by norm_num
    rw [e2, csqrt_eq (le_refl _)]
    simp only [Option.bind_some, Real.sqrt_zero, mul_zero, neg_zero, ite_self]
    rw [cdiv_eq (by norm_num)]
    simp only [Option.bind_some]
    norm_num
  have hcc : case3 ⟨0, 0, -1, 0, 0, -1, 1 / 2, false⟩ (-175 / 1000) (-5 / 100) 0 (5 / 2) = some (5 / 2) := by
    unfold case3
    rw [hc3]
    simp only [Option.bind_eq_bind, Option.bind_some]
    rw [cdiv_eq (by norm_num)]
    simp only [Option.bind_some, Bool.false_eq_true, if_false]
    have hgt : |(5 / 2 - 1 / 2 : ℝ)| > |1 / 2 + -5 / 100 / (-5 / 100 - -1) * (0 - 1 / 2) - 1 / 2| := by norm_num [abs_of_pos]
    rw [if_pos hgt]
    norm_num
  refine ⟨_, ?_, rfl⟩
  unfold dcstep
  simp only
  rw [cdiv_eq (by norm_num)]
  simp only [Option.bind_eq_bind, Option.bind_some]
  have h1 : ¬ ((-175 / 1000 : ℝ) > 0) := by norm_num
  have h2 : ¬ ((-5 / 100 : ℝ) * (-1 / |-1|) < 0) := by norm_num
  have h3 : |(-5 / 100 : ℝ)| < |-1| := by norm_num [abs_of_neg]
  simp only [if_neg h1, if_neg h2, if_pos h3, hcc, Option.bind_some]

theorem nan_second : dcstep ⟨1 / 2, -175 / 1000 + 1 / 2 / 10, -5 / 100 + 1 / 10, 0, 0, -1 + 1 / 10, 5 / 2, false⟩ (-225 / 1000 + 5 / 2 / 10)
    (75 / 1000 + 1 / 10) (5 / 2 + (5 / 2 - 1 / 2) * 1.1) (5 / 2 + (5 / 2 - 1 / 2) * 4) = none := by
  unfold dcstep
  simp only
  rw [cdiv_eq (by norm_num)]
  simp only [Option.bind_eq_bind, Option.bind_some]
  have h1 : (-225 / 1000 + 5 / 2 / 10 : ℝ) > -175 / 1000 + 1 / 2 / 10 := by norm_num
  simp only [if_pos h1]
  unfold case1
  simp only
  rw [cdiv_eq (by norm_num)]
  simp only [Option.bind_eq_bind, Option.bind_some]
  have e : (-175 / 1000 + 1 / 2 / 10 - (-225 / 1000 + 5 / 2 / 10) : ℝ) * 3 / (5 / 2 - 1 / 2) + (-5 / 100 + 1 / 10) + (75 / 1000 + 1 / 10) = 0 := by
    norm_num
  rw [e]
  have hg : gammaOf 0 (-5 / 100 + 1 / 10) (75 / 1000 + 1 / 10) = none := by
    unfold gammaOf
    have hs : max (max |(0 : ℝ)| |(-5 / 100 + 1 / 10 : ℝ)|) |(75 / 1000 + 1 / 10 : ℝ)| = 7 / 40 := by
      rw [abs_zero, abs_of_pos (by norm_num), abs_of_pos (by norm_num), max_eq_right (by norm_num : (0 : ℝ) ≤ _), max_eq_right (by norm_num)]
      norm_num
    rw [hs]
    simp only [cdiv_eq (show (7 / 40 : ℝ) ≠ 0 by norm_num), Option.bind_eq_bind, Option.bind_some]
    have : csqrt (0 / (7 / 40) * (0 / (7 / 40)) - (-5 / 100 + 1 / 10) / (7 / 40) * ((75 / 1000 + 1 / 10) / (7 / 40))) = none := by
      unfold csqrt
      rw [if_pos (by norm_num)]
    rw [this]
    rfl
  rw [hg]
  simp

/-- C24 (no NaN) fails: for the polynomial `nanPoly`, with the eigensolver's own tolerances and limits and the initial guess 1/2, the
second call of the search takes the square root of a negative number.  After the first evaluation (sufficient decrease, but a slope between the
tolerance and the sufficient-decrease slope) the search stays in its first stage; the second trial point is lower but without sufficient
decrease, so the modified function is used, whose slope at the best point has the wrong sign. -/
theorem C24_nan_refuted : nanPoly 0 = (0, -1) ∧ (∀ x, HasDerivAt (fun y => (nanPoly y).1) (nanPoly x).2 x) ∧
    ∀ n w, linmin nanPar nanPoly (n + 3) (1 / 2) 0 (-1) w = .nan := by
  have hpi := Real.pi_gt_three
  refine ⟨by norm_num [nanPoly], ?_, ?_⟩
  · intro x
    unfold nanPoly
    simp only
    have h1 := (hasDerivAt_id x).neg
    have h2 := ((hasDerivAt_id x).pow 2).const_mul (17661 / 8000 : ℝ)
    have h3 := ((hasDerivAt_id x).pow 3).const_mul (45339 / 20000 : ℝ)
    have h4 := ((hasDerivAt_id x).pow 4).const_mul (9763 / 10000 : ℝ)
    have h5 := ((hasDerivAt_id x).pow 5).const_mul (729 / 5000 : ℝ)
    have h := (((h1.add h2).sub h3).add h4).sub h5
    refine h.congr_deriv ?_
    simp
    ring
  · intro n w
    have hv : ValidStart nanPar (1 / 2) (-1) := by
      constructor
      all_goals first
        | (simp only [nanPar]; linarith)
        | (simp only [nanPar]; positivity)
        | norm_num [nanPar]
    obtain ⟨t, w1, h1, -, -, h4⟩ := C24_start nanPar (1 / 2) 0 (-1) w
    obtain ⟨rfl, hw⟩ := h4 hv
    have hp1 : nanPoly (1 / 2) = (-175 / 1000, -5 / 100) := by norm_num [nanPoly]
    have hp2 : nanPoly (5 / 2) = (-225 / 1000, 75 / 1000) := by norm_num [nanPoly]
    -- first FG call
    obtain ⟨s', hd, rfl⟩ := nan_first
    have hg7 : (10 : ℝ) ^ (-7 : ℤ) = 1 / 10000000 := by norm_num
    have hs1 : ∃ w2, dcsrch nanPar .fg (1 / 2) (-175 / 1000) (-5 / 100) w1 = some (.fg, 5 / 2, w2) ∧
        restore w2 = { initLocal nanPar (1 / 2) 0 (-1) with
          stx := 1 / 2, fx := -175 / 1000, gx := -5 / 100, sty := 0, fy := 0, gy := -1, brackt := false,
          stmin := 5 / 2 + (5 / 2 - 1 / 2) * 1.1, stmax := 5 / 2 + (5 / 2 - 1 / 2) * 4 } := by
      unfold dcsrch
      simp only [reduceCtorEq, if_false, hw]
      have hc : ¬ ((initLocal nanPar (1 / 2) 0 (-1)).stage = 1 ∧ (-175 / 1000 : ℝ) ≤ (initLocal nanPar (1 / 2) 0 (-1)).finit +
          1 / 2 * (initLocal nanPar (1 / 2) 0 (-1)).gtest ∧ (-5 / 100 : ℝ) ≥ 0) := by norm_num
      simp only [if_neg hc]
      have e : ({ initLocal nanPar (1 / 2) 0 (-1) with stage := (initLocal nanPar (1 / 2) 0 (-1)).stage } : Local) = initLocal nanPar (1 / 2) 0 (-1) := rfl
      rw [e]
      have htt : testTask nanPar (initLocal nanPar (1 / 2) 0 (-1)) (1 / 2) (-175 / 1000) (-5 / 100) = .fg := by
        have hne : ¬ ((1 / 2 : ℝ) = Real.pi) := by intro h; linarith
        unfold testTask
        simp only [initLocal, nanPar, hne, hg7]
        norm_num
      rw [htt]
      simp only [Task.isWarn, Bool.false_eq_true, reduceCtorEq, or_self, if_false]
      have hm : ¬ ((initLocal nanPar (1 / 2) 0 (-1)).stage = 1 ∧ (-175 / 1000 : ℝ) ≤ (initLocal nanPar (1 / 2) 0 (-1)).fx ∧
          (-175 / 1000 : ℝ) > (initLocal nanPar (1 / 2) 0 (-1)).finit + 1 / 2 * (initLocal nanPar (1 / 2) 0 (-1)).gtest) := by
        simp only [initLocal, nanPar]; norm_num
      have hstp : (1 / 2 : ℝ) + 1 / 2 * 4 = 5 / 2 := by norm_num
      have hcall : stepCall (initLocal nanPar (1 / 2) 0 (-1)) (1 / 2) (-175 / 1000) (-5 / 100) = some ({ initLocal nanPar (1 / 2) 0 (-1) with
          brackt := false, stx := 1 / 2, sty := 0, fx := -175 / 1000, fy := 0, gx := -5 / 100, gy := -1 }, 5 / 2) := by
        unfold stepCall
        simp only [if_neg hm]
        simp only [initLocal, hstp, hd, Option.bind_eq_bind, Option.bind_some]
      rw [hcall]
      simp only [Option.bind_eq_bind, Option.bind_some]
      have hfin : finish nanPar { initLocal nanPar (1 / 2) 0 (-1) with
          brackt := false, stx := 1 / 2, sty := 0, fx := -175 / 1000, fy := 0, gx := -5 / 100, gy := -1 } (5 / 2)
          = ({ initLocal nanPar (1 / 2) 0 (-1) with
          stx := 1 / 2, fx := -175 / 1000, gx := -5 / 100, sty := 0, fy := 0, gy := -1, brackt := false,
          stmin := 5 / 2 + (5 / 2 - 1 / 2) * 1.1, stmax := 5 / 2 + (5 / 2 - 1 / 2) * 4 }, 5 / 2) := by
        unfold finish
        simp only [Bool.false_eq_true, false_and, if_false, or_self, nanPar, initLocal]
        rw [max_eq_left (by norm_num), min_eq_left (by linarith)]
      rw [hfin]
      exact ⟨_, rfl, C24_save_restore _ _⟩
    obtain ⟨w2, hs1, hw2⟩ := hs1
    -- second FG call
    have hs2 : dcsrch nanPar .fg (5 / 2) (-225 / 1000) (75 / 1000) w2 = none := by
      unfold dcsrch
      simp only [reduceCtorEq, if_false, hw2]
      have hgt : (initLocal nanPar (1 / 2) 0 (-1)).gtest = -(1 / 10) := by norm_num [initLocal, nanPar]
      have hfi : (initLocal nanPar (1 / 2) 0 (-1)).finit = 0 := rfl
      have hsta : (initLocal nanPar (1 / 2) 0 (-1)).stage = 1 := rfl
      have hgi : (initLocal nanPar (1 / 2) 0 (-1)).ginit = -1 := rfl
      have hc : ¬ (True ∧ (-225 / 1000 : ℝ) ≤ 0 + 5 / 2 * -(1 / 10) ∧ (75 / 1000 : ℝ) ≥ 0) := by norm_num
      simp only [hgt, hfi, hsta, hgi]
      simp only [if_neg hc]
      generalize hl : ({ brackt := false, stage := 1, ginit := -1, gtest := -(1 / 10), gx := -5 / 100, gy := -1, finit := 0, fx := -175 / 1000, fy := 0,
                         stx := 1 / 2, sty := 0, stmin := 5 / 2 + (5 / 2 - 1 / 2) * 1.1, stmax := 5 / 2 + (5 / 2 - 1 / 2) * 4,
                         width := (initLocal nanPar (1 / 2) 0 (-1)).width, width1 := (initLocal nanPar (1 / 2) 0 (-1)).width1 } : Local) = l
      have htt : testTask nanPar l (5 / 2) (-225 / 1000) (75 / 1000) = .fg := by
        have hne : ¬ ((5 / 2 : ℝ) = Real.pi) := by intro h; linarith
        rw [← hl]
        unfold testTask
        simp only [nanPar, hne]
        norm_num
      rw [htt]
      simp only [Task.isWarn, Bool.false_eq_true, reduceCtorEq, or_self, if_false]
      have hm : True ∧ (-225 / 1000 : ℝ) ≤ -175 / 1000 ∧ (-225 / 1000 : ℝ) > 0 + 5 / 2 * -(1 / 10) := by norm_num
      have hcall : stepCall l (5 / 2) (-225 / 1000) (75 / 1000) = none := by
        rw [← hl]
        unfold stepCall
        simp only [if_pos hm]
        have e1 : (-225 / 1000 - 5 / 2 * -(1 / 10) : ℝ) = -225 / 1000 + 5 / 2 / 10 := by norm_num
        have e2 : (-175 / 1000 - 1 / 2 * -(1 / 10) : ℝ) = -175 / 1000 + 1 / 2 / 10 := by norm_num
        have e3 : (0 - 0 * -(1 / 10) : ℝ) = 0 := by norm_num
        have e4 : (75 / 1000 - -(1 / 10) : ℝ) = 75 / 1000 + 1 / 10 := by norm_num
        have e5 : (-5 / 100 - -(1 / 10) : ℝ) = -5 / 100 + 1 / 10 := by norm_num
        have e6 : (-1 - -(1 / 10) : ℝ) = -1 + 1 / 10 := by norm_num
        rw [e1, e2, e3, e4, e5, e6, nan_second]
        rfl
      rw [hcall]
      rfl
    unfold linmin
    rw [if_neg (by norm_num), if_neg (by norm_num)]
    unfold linminDown
    rw [h1]
    simp only
    rw [loop, if_pos rfl, hp1]
    simp only [hs1]
    rw [loop, if_pos rfl, hp2]
    simp only [hs2]

end Mpb.Linmin

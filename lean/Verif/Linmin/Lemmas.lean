import Verif.Linmin.Spec
import Mathlib.Tactic.Linarith
import Mathlib.Tactic.Ring
import Mathlib.Tactic.FieldSimp
import Mathlib.Tactic.Positivity

namespace Mpb.Linmin

open Spec

theorem cdiv_eq {a b : ℝ} (h : b ≠ 0) : cdiv a b = some (a / b) := by simp [cdiv, h]

theorem cdiv_some {a b r : ℝ} (h : cdiv a b = some r) : b ≠ 0 ∧ r = a / b := by
  unfold cdiv at h
  split at h
  · simp at h
  · rename_i hb
    exact ⟨hb, by simpa using h.symm⟩

theorem csqrt_eq {x : ℝ} (h : 0 ≤ x) : csqrt x = some (Real.sqrt x) := by simp [csqrt, not_lt.mpr h]

theorem scale_pos (t a b : ℝ) (h : a ≠ 0 ∨ b ≠ 0) : 0 < max (max |t| |a|) |b| := by
  rcases h with h | h
  · exact lt_of_lt_of_le (abs_pos.mpr h) ((le_max_right _ _).trans (le_max_left _ _))
  · exact lt_of_lt_of_le (abs_pos.mpr h) (le_max_right _ _)

theorem scaled_sqrt {s t a b : ℝ} (hs : 0 < s) : s * Real.sqrt (t / s * (t / s) - a / s * (b / s)) = Real.sqrt (t * t - a * b) := by
  have : t * t - a * b = s * s * (t / s * (t / s) - a / s * (b / s)) := by field_simp
  rw [this, Real.sqrt_mul (by positivity), Real.sqrt_mul_self hs.le]

theorem scaled_sqrt_max {s t a b : ℝ} (hs : 0 < s) :
    s * Real.sqrt (max 0 (t / s * (t / s) - a / s * (b / s))) = Real.sqrt (max 0 (t * t - a * b)) := by
  have : max 0 (t * t - a * b) = s * s * max 0 (t / s * (t / s) - a / s * (b / s)) := by
    rw [mul_max_of_nonneg _ _ (by positivity)]
    congr 1
    · ring
    · field_simp
  rw [this, Real.sqrt_mul (by positivity), Real.sqrt_mul_self hs.le]

theorem gammaOf_eq {t a b : ℝ} (h : a ≠ 0 ∨ b ≠ 0) (h0 : 0 ≤ t * t - a * b) : gammaOf t a b = some (Real.sqrt (t * t - a * b)) := by
  have hs := scale_pos t a b h
  have hn : max (max |t| |a|) |b| ≠ 0 := hs.ne'
  have hnn : 0 ≤ t / (max (max |t| |a|) |b|) * (t / (max (max |t| |a|) |b|)) - a / (max (max |t| |a|) |b|) * (b / (max (max |t| |a|) |b|)) := by
    have : t / (max (max |t| |a|) |b|) * (t / (max (max |t| |a|) |b|)) - a / (max (max |t| |a|) |b|) * (b / (max (max |t| |a|) |b|))
        = (t * t - a * b) / ((max (max |t| |a|) |b|) * (max (max |t| |a|) |b|)) := by field_simp
    rw [this]
    positivity
  simp only [gammaOf, cdiv_eq hn, csqrt_eq hnn, Option.bind_eq_bind, Option.bind_some, scaled_sqrt hs]

/-- The cubic interpolation between a point with negative slope `a` and a point that is not lower gives a fraction in `[0, 1]`. -/
theorem cubic_up {a b d : ℝ} (ha : a < 0) (hd : 0 ≤ d) :
    let t := -3 * d + a + b
    let g := Real.sqrt (t * t - a * b)
    0 ≤ t * t - a * b ∧ 0 < g - a + g + b ∧ 0 ≤ (g - a + t) / (g - a + g + b) ∧ (g - a + t) / (g - a + g + b) ≤ 1 := by
  intro t g
  have h0 : 0 ≤ t * t - a * b := by
    by_cases hb : 0 ≤ b
    · nlinarith [mul_self_nonneg t]
    · push Not at hb
      have : t ≤ a + b := by simp only [t]; linarith
      nlinarith [mul_pos_of_neg_of_neg ha hb]
  have hg : 0 ≤ g := Real.sqrt_nonneg _
  have hgg : g * g = t * t - a * b := Real.mul_self_sqrt h0
  have hp : 0 ≤ g - a + t := by
    have e : g - a + t = g - (3 * d - b) := by simp only [t]; ring
    rw [e]
    by_cases hb : 3 * d ≤ b
    · linarith
    · push Not at hb
      have : (3 * d - b) * (3 * d - b) ≤ g * g := by rw [hgg]; simp only [t]; nlinarith
      nlinarith
  have hqp : 0 < (g - a + g + b) - (g - a + t) := by simp only [t]; linarith
  have hq : 0 < g - a + g + b := by linarith
  exact ⟨h0, hq, div_nonneg hp hq.le, (div_le_one hq).mpr (by linarith)⟩

/-- The cubic interpolation between points with slopes `a < 0 < b` where the second is not higher. -/
theorem cubic_down {a b d : ℝ} (ha : a < 0) (hb : 0 < b) (hd : 0 ≤ d) :
    let t := 3 * d + a + b
    let g := Real.sqrt (t * t - a * b)
    0 ≤ t * t - a * b ∧ -g - b + -g + a < 0 ∧ 0 ≤ (-g - b + t) / (-g - b + -g + a) ∧ (-g - b + t) / (-g - b + -g + a) ≤ 1 := by
  intro t g
  have h0 : 0 ≤ t * t - a * b := by nlinarith [mul_self_nonneg t, mul_pos (neg_pos.mpr ha) hb]
  have hg : 0 ≤ g := Real.sqrt_nonneg _
  have hgg : g * g = t * t - a * b := Real.mul_self_sqrt h0
  have hp : -g - b + t ≤ 0 := by
    have e : -g - b + t = 3 * d + a - g := by simp only [t]; ring
    rw [e]
    by_cases hu : 3 * d + a ≤ 0
    · linarith
    · push Not at hu
      have : (3 * d + a) * (3 * d + a) ≤ g * g := by rw [hgg]; simp only [t]; nlinarith
      nlinarith
  have hq : -g - b + -g + a < 0 := by linarith
  have hqp : -g - b + -g + a ≤ -g - b + t := by simp only [t]; linarith
  exact ⟨h0, hq, div_nonneg_of_nonpos hp hq.le, (div_le_one_of_neg hq).mpr hqp⟩

/-- The two directions of a step: `e = 1` forward, `e = -1` backward. -/
theorem dir_cases {a u : ℝ} (h : a * u < 0) : (0 < u ∧ a < 0) ∨ (u < 0 ∧ 0 < a) := by
  rcases lt_trichotomy u 0 with hu | hu | hu
  · right; exact ⟨hu, by nlinarith⟩
  · rw [hu] at h; simp at h
  · left; exact ⟨hu, by nlinarith⟩

theorem case1_spec (s : Step) (fp dp : ℝ) (hd : s.dx * (s.stp - s.stx) < 0) (hf : s.fx < fp) :
    ∃ x, case1 s fp dp = some x ∧ Between s.stx s.stp x := by
  have hne : s.stp - s.stx ≠ 0 := by rintro h; rw [h] at hd; simp at hd
  have hdx : s.dx ≠ 0 := by rintro h; rw [h] at hd; simp at hd
  -- the three quantities: fraction of the cubic step, fraction of the quadratic step
  have key : ∃ r, (0 ≤ r ∧ r ≤ 1) ∧ ∃ b, (0 ≤ b ∧ b ≤ 1) ∧ case1 s fp dp = some (
      if |s.stx + r * (s.stp - s.stx) - s.stx| < |s.stx + b / 2 * (s.stp - s.stx) - s.stx| then s.stx + r * (s.stp - s.stx)
      else s.stx + r * (s.stp - s.stx) + (s.stx + b / 2 * (s.stp - s.stx) - (s.stx + r * (s.stp - s.stx))) / 2) := by
    rcases dir_cases hd with ⟨hu, ha⟩ | ⟨hu, ha⟩
    · have hδ : 0 ≤ (fp - s.fx) / (s.stp - s.stx) := div_nonneg (by linarith) hu.le
      have hδ' : 0 < (fp - s.fx) / (s.stp - s.stx) := div_pos (by linarith) hu
      have ht : (s.fx - fp) * 3 / (s.stp - s.stx) + s.dx + dp = -3 * ((fp - s.fx) / (s.stp - s.stx)) + s.dx + dp := by ring
      have hq2 : (s.fx - fp) / (s.stp - s.stx) + s.dx = -((fp - s.fx) / (s.stp - s.stx)) + s.dx := by ring
      have K := cubic_up (b := dp) ha hδ
      simp only at K
      obtain ⟨h0, hq, hr0, hr1⟩ := K
      have hneg : -((fp - s.fx) / (s.stp - s.stx)) + s.dx < 0 := by linarith
      refine ⟨_, ⟨hr0, hr1⟩, s.dx / (-((fp - s.fx) / (s.stp - s.stx)) + s.dx), ⟨div_nonneg_of_nonpos ha.le hneg.le, ?_⟩, ?_⟩
      · rw [div_le_one_of_neg hneg]; linarith
      · have hlt : ¬ s.stp < s.stx := by linarith
        simp only [case1, cdiv_eq hne, ht, gammaOf_eq (Or.inl hdx) h0, Option.bind_eq_bind, Option.bind_some, if_neg hlt,
          cdiv_eq hq.ne', hq2, cdiv_eq hneg.ne]
    · have hδ : 0 ≤ (fp - s.fx) / (s.stx - s.stp) := div_nonneg (by linarith) (by linarith)
      have hδ' : 0 < (fp - s.fx) / (s.stx - s.stp) := div_pos (by linarith) (by linarith)
      have e0 : (s.fx - fp) / (s.stp - s.stx) = (fp - s.fx) / (s.stx - s.stp) := by
        rw [← neg_sub fp, ← neg_sub s.stx, neg_div_neg_eq]
      have ht : (s.fx - fp) * 3 / (s.stp - s.stx) + s.dx + dp = -(-3 * ((fp - s.fx) / (s.stx - s.stp)) + -s.dx + -dp) := by
        rw [← e0]; ring
      have hq2 : (s.fx - fp) / (s.stp - s.stx) + s.dx = (fp - s.fx) / (s.stx - s.stp) + s.dx := by rw [e0]
      have K := cubic_up (a := -s.dx) (b := -dp) (neg_lt_zero.mpr ha) hδ
      simp only at K
      obtain ⟨h0, hq, hr0, hr1⟩ := K
      have hpos : 0 < (fp - s.fx) / (s.stx - s.stp) + s.dx := by linarith
      generalize htt : -3 * ((fp - s.fx) / (s.stx - s.stp)) + -s.dx + -dp = t at *
      have h0' : 0 ≤ -t * -t - s.dx * dp := by nlinarith
      have hg : -t * -t - s.dx * dp = t * t - -s.dx * -dp := by ring
      generalize hgg : Real.sqrt (t * t - -s.dx * -dp) = g at *
      refine ⟨_, ⟨hr0, hr1⟩, s.dx / ((fp - s.fx) / (s.stx - s.stp) + s.dx), ⟨div_nonneg ha.le hpos.le, ?_⟩, ?_⟩
      · rw [div_le_one hpos]; linarith
      · have hlt : s.stp < s.stx := by linarith
        have hq' : -g - s.dx + -g + dp ≠ 0 := by intro h; apply hq.ne'; linarith
        have hr' : (-g - s.dx + -t) / (-g - s.dx + -g + dp) = (g - -s.dx + t) / (g - -s.dx + g + -dp) := by
          rw [← neg_div_neg_eq]; congr 1 <;> ring
        simp only [case1, cdiv_eq hne, ht, gammaOf_eq (Or.inl hdx) h0', hg, hgg, Option.bind_eq_bind, Option.bind_some, if_pos hlt,
          cdiv_eq hq', hq2, cdiv_eq hpos.ne', hr']
  obtain ⟨r, ⟨hr0, hr1⟩, b, ⟨hb0, hb1⟩, hk⟩ := key
  refine ⟨_, hk, ?_⟩
  have hbet : ∀ c : ℝ, 0 ≤ c → c ≤ 1 → Between s.stx s.stp (s.stx + c * (s.stp - s.stx)) := by
    intro c h0 h1
    unfold Between
    rcases le_total s.stx s.stp with h | h
    · rw [min_eq_left h, max_eq_right h]; constructor <;> nlinarith
    · rw [min_eq_right h, max_eq_left h]; constructor <;> nlinarith
  split
  · exact hbet r hr0 hr1
  · have : s.stx + r * (s.stp - s.stx) + (s.stx + b / 2 * (s.stp - s.stx) - (s.stx + r * (s.stp - s.stx))) / 2
        = s.stx + (r + b / 2) / 2 * (s.stp - s.stx) := by ring
    rw [this]
    exact hbet _ (by linarith) (by linarith)

theorem between_lin {a b c : ℝ} (h0 : 0 ≤ c) (h1 : c ≤ 1) : Between a b (b + c * (a - b)) := by
  unfold Between
  rcases le_total a b with h | h
  · rw [min_eq_left h, max_eq_right h]; constructor <;> nlinarith
  · rw [min_eq_right h, max_eq_left h]; constructor <;> nlinarith

theorem case2_spec (s : Step) (fp dp : ℝ) (hd : s.dx * (s.stp - s.stx) < 0) (hf : fp ≤ s.fx) (hs : dp * s.dx < 0) :
    ∃ x, case2 s fp dp = some x ∧ Between s.stx s.stp x := by
  have hne : s.stp - s.stx ≠ 0 := by rintro h; rw [h] at hd; simp at hd
  have hdx : s.dx ≠ 0 := by rintro h; rw [h] at hd; simp at hd
  have key : ∃ r, (0 ≤ r ∧ r ≤ 1) ∧ ∃ b, (0 ≤ b ∧ b ≤ 1) ∧ case2 s fp dp = some (
      if |s.stp + r * (s.stx - s.stp) - s.stp| > |s.stp + b * (s.stx - s.stp) - s.stp| then s.stp + r * (s.stx - s.stp)
      else s.stp + b * (s.stx - s.stp)) := by
    rcases dir_cases hd with ⟨hu, ha⟩ | ⟨hu, ha⟩
    · have hb : 0 < dp := by nlinarith
      have hδ : 0 ≤ (s.fx - fp) / (s.stp - s.stx) := div_nonneg (by linarith) hu.le
      have ht : (s.fx - fp) * 3 / (s.stp - s.stx) + s.dx + dp = 3 * ((s.fx - fp) / (s.stp - s.stx)) + s.dx + dp := by ring
      have K := cubic_down ha hb hδ
      simp only at K
      obtain ⟨h0, hq, hr0, hr1⟩ := K
      have hq2 : 0 < dp - s.dx := by linarith
      refine ⟨_, ⟨hr0, hr1⟩, dp / (dp - s.dx), ⟨div_nonneg hb.le hq2.le, (div_le_one hq2).mpr (by linarith)⟩, ?_⟩
      have hlt : s.stp > s.stx := by linarith
      simp only [case2, cdiv_eq hne, ht, gammaOf_eq (Or.inl hdx) h0, Option.bind_eq_bind, Option.bind_some, if_pos hlt,
          cdiv_eq hq.ne, cdiv_eq hq2.ne']
    · have hb : dp < 0 := by nlinarith
      have hδ : 0 ≤ (s.fx - fp) / (s.stx - s.stp) := div_nonneg (by linarith) (by linarith)
      have e0 : (s.fx - fp) / (s.stp - s.stx) = -((s.fx - fp) / (s.stx - s.stp)) := by
        rw [← neg_sub s.stx, div_neg]
      have ht : (s.fx - fp) * 3 / (s.stp - s.stx) + s.dx + dp = -(3 * ((s.fx - fp) / (s.stx - s.stp)) + -s.dx + -dp) := by
        have : (s.fx - fp) * 3 / (s.stp - s.stx) = 3 * ((s.fx - fp) / (s.stp - s.stx)) := by ring
        rw [this, e0]; ring
      have K := cubic_down (a := -s.dx) (b := -dp) (neg_lt_zero.mpr ha) (neg_pos.mpr hb) hδ
      simp only at K
      obtain ⟨h0, hq, hr0, hr1⟩ := K
      generalize htt : 3 * ((s.fx - fp) / (s.stx - s.stp)) + -s.dx + -dp = t at *
      have h0' : 0 ≤ -t * -t - s.dx * dp := by nlinarith
      have hg : -t * -t - s.dx * dp = t * t - -s.dx * -dp := by ring
      generalize hgg : Real.sqrt (t * t - -s.dx * -dp) = g at *
      have hq2 : dp - s.dx < 0 := by linarith
      refine ⟨_, ⟨hr0, hr1⟩, dp / (dp - s.dx), ⟨div_nonneg_of_nonpos hb.le hq2.le, (div_le_one_of_neg hq2).mpr (by linarith)⟩, ?_⟩
      have hlt : ¬ s.stp > s.stx := by linarith
      have hq' : g - dp + g + s.dx ≠ 0 := by intro h; apply hq.ne; linarith
      have hr' : (g - dp + -t) / (g - dp + g + s.dx) = (-g - -dp + t) / (-g - -dp + -g + -s.dx) := by
        rw [← neg_div_neg_eq]; congr 1 <;> ring
      simp only [case2, cdiv_eq hne, ht, gammaOf_eq (Or.inl hdx) h0', hg, hgg, Option.bind_eq_bind, Option.bind_some, if_neg hlt,
          cdiv_eq hq', cdiv_eq hq2.ne, hr']
  obtain ⟨r, ⟨hr0, hr1⟩, b, ⟨hb0, hb1⟩, hk⟩ := key
  refine ⟨_, hk, ?_⟩
  split
  · exact between_lin hr0 hr1
  · exact between_lin hb0 hb1

/-- Case 3: the cubic step is defined and lies beyond `stp` in the direction of the step, or is a limit. -/
theorem case3cubic_spec (s : Step) (fp dp lo hi : ℝ) (hd : s.dx * (s.stp - s.stx) < 0) (hs : 0 ≤ dp * s.dx) (hl : |dp| < |s.dx|) :
    ∃ x, case3cubic s fp dp lo hi = some x ∧ (s.stx < s.stp → s.stp < x ∨ x = hi) ∧ (s.stp < s.stx → x < s.stp ∨ x = lo) := by
  have hne : s.stp - s.stx ≠ 0 := by rintro h; rw [h] at hd; simp at hd
  have hdx : s.dx ≠ 0 := by rintro h; rw [h] at hd; simp at hd
  unfold case3cubic
  simp only [cdiv_eq hne, Option.bind_eq_bind, Option.bind_some]
  generalize (s.fx - fp) * 3 / (s.stp - s.stx) + s.dx + dp = t
  have hsc := scale_pos t s.dx dp (Or.inl hdx)
  simp only [cdiv_eq hsc.ne', Option.bind_some, csqrt_eq (le_max_left 0 _), scaled_sqrt_max hsc]
  generalize hg : Real.sqrt (max 0 (t * t - s.dx * dp)) = g
  have hg0 : 0 ≤ g := hg ▸ Real.sqrt_nonneg _
  rcases dir_cases hd with ⟨hu, ha⟩ | ⟨hu, ha⟩
  · have hgt : s.stp > s.stx := by linarith
    have hba : s.dx < dp := by
      rw [abs_of_neg ha] at hl
      have := neg_abs_le dp
      linarith
    have hq : -g + (s.dx - dp) + -g < 0 := by linarith
    simp only [if_pos hgt, cdiv_eq hq.ne, Option.bind_some]
    refine ⟨_, rfl, ?_, ?_⟩
    · intro _
      split
      · rename_i h
        left
        nlinarith [h.1]
      · right; rfl
    · intro h; exact absurd hgt (by linarith)
  · have hgt : ¬ s.stp > s.stx := by linarith
    have hba : dp < s.dx := by
      rw [abs_of_pos ha] at hl
      exact lt_of_le_of_lt (le_abs_self dp) hl
    have hq : 0 < g + (s.dx - dp) + g := by linarith
    simp only [if_neg hgt, cdiv_eq hq.ne', Option.bind_some]
    refine ⟨_, rfl, ?_, ?_⟩
    · intro h; exact absurd h (by linarith)
    · intro _
      split
      · rename_i h
        left
        nlinarith [h.1]
      · right; rfl

theorem case3_spec (s : Step) (fp dp lo hi : ℝ) (hd : s.dx * (s.stp - s.stx) < 0) (hs : 0 ≤ dp * s.dx) (hl : |dp| < |s.dx|)
    (hlim : lo ≤ hi) (hin : s.brackt = true → StrictlyBetween s.stx s.sty s.stp) (hin2 : s.brackt = true → lo ≤ s.stp ∧ s.stp ≤ hi) :
    ∃ x, case3 s fp dp lo hi = some x ∧ (s.brackt = true → Between s.stp s.sty x) ∧ (s.brackt = false → lo ≤ x ∧ x ≤ hi) := by
  obtain ⟨c, hc, hc1, hc2⟩ := case3cubic_spec s fp dp lo hi hd hs hl
  have hdx : s.dx ≠ 0 := by rintro h; rw [h] at hd; simp at hd
  have hnd : dp - s.dx ≠ 0 := by
    intro h
    have : dp = s.dx := by linarith
    rw [this] at hl
    exact lt_irrefl _ hl
  simp only [case3, hc, cdiv_eq hnd, Option.bind_eq_bind, Option.bind_some]
  cases hb : s.brackt with
  | false =>
    refine ⟨max lo (min hi _), by simp; rfl, by simp, ?_⟩
    intro _
    exact ⟨le_max_left _ _, max_le hlim (min_le_left _ _)⟩
  | true =>
    simp only [if_true]
    refine ⟨_, rfl, fun _ => ?_, by simp⟩
    have hsb := hin hb
    obtain ⟨hlo, hhi⟩ := hin2 hb
    unfold StrictlyBetween at hsb
    unfold Between
    rcases dir_cases hd with ⟨hu, ha⟩ | ⟨hu, ha⟩
    · have hgt : s.stp > s.stx := by linarith
      have hsty : s.stp < s.sty := by
        rcases le_total s.stx s.sty with h | h
        · rw [max_eq_right h] at hsb; exact hsb.2
        · rw [max_eq_left h] at hsb; linarith [hsb.2]
      have hquad : s.stp ≤ s.stp + dp / (dp - s.dx) * (s.stx - s.stp) := by
        have hdp : dp ≤ 0 := by nlinarith
        have hpos : 0 < dp - s.dx := by
          rw [abs_of_neg ha] at hl
          linarith [neg_abs_le dp]
        have := div_nonpos_of_nonpos_of_nonneg hdp hpos.le
        nlinarith
      have hcc : s.stp ≤ c := by
        rcases hc1 (by linarith) with h | h
        · exact h.le
        · rw [h]; exact hhi
      have hf : s.stp ≤ (if |c - s.stp| < |s.stp + dp / (dp - s.dx) * (s.stx - s.stp) - s.stp| then c
          else s.stp + dp / (dp - s.dx) * (s.stx - s.stp)) := by split <;> assumption
      rw [if_pos hgt, min_eq_left hsty.le, max_eq_right hsty.le]
      refine ⟨le_min ?_ hf, (min_le_left _ _).trans ?_⟩
      · nlinarith
      · nlinarith
    · have hgt : ¬ s.stp > s.stx := by linarith
      have hsty : s.sty < s.stp := by
        rcases le_total s.stx s.sty with h | h
        · rw [min_eq_left h] at hsb; linarith [hsb.1]
        · rw [min_eq_right h] at hsb; exact hsb.1
      have hquad : s.stp + dp / (dp - s.dx) * (s.stx - s.stp) ≤ s.stp := by
        have hdp : 0 ≤ dp := by nlinarith
        have hneg : dp - s.dx < 0 := by
          rw [abs_of_pos ha] at hl
          linarith [le_abs_self dp]
        have := div_nonpos_of_nonneg_of_nonpos hdp hneg.le
        nlinarith
      have hcc : c ≤ s.stp := by
        rcases hc2 (by linarith) with h | h
        · exact h.le
        · rw [h]; exact hlo
      have hf : (if |c - s.stp| < |s.stp + dp / (dp - s.dx) * (s.stx - s.stp) - s.stp| then c
          else s.stp + dp / (dp - s.dx) * (s.stx - s.stp)) ≤ s.stp := by split <;> assumption
      rw [if_neg hgt, min_eq_right hsty.le, max_eq_left hsty.le]
      refine ⟨le_trans ?_ (le_max_left _ _), max_le ?_ hf⟩
      · nlinarith
      · nlinarith

theorem case4_spec (s : Step) (fp dp lo hi : ℝ) (hd : s.dx * (s.stp - s.stx) < 0) (hs : 0 ≤ dp * s.dx) (hl : ¬ |dp| < |s.dx|)
    (hlim : lo ≤ hi) (hin : s.brackt = true → StrictlyBetween s.stx s.sty s.stp) (hf : s.brackt = true → fp ≤ s.fy) :
    ∃ x, case4 s fp dp lo hi = some x ∧ (s.brackt = true → Between s.stp s.sty x) ∧ (s.brackt = false → lo ≤ x ∧ x ≤ hi) := by
  have hdx : s.dx ≠ 0 := by rintro h; rw [h] at hd; simp at hd
  unfold case4
  cases hb : s.brackt with
  | false =>
    refine ⟨_, rfl, by simp, fun _ => ?_⟩
    split
    · exact ⟨hlim, le_refl _⟩
    · exact ⟨le_refl _, hlim⟩
  | true =>
    simp only [if_true]
    have hsb := hin hb
    have hfy := hf hb
    unfold StrictlyBetween at hsb
    have hbet : ∀ c : ℝ, 0 ≤ c → c ≤ 1 → Between s.stp s.sty (s.stp + c * (s.sty - s.stp)) := by
      intro c h0 h1
      unfold Between
      rcases le_total s.stp s.sty with h | h
      · rw [min_eq_left h, max_eq_right h]; constructor <;> nlinarith
      · rw [min_eq_right h, max_eq_left h]; constructor <;> nlinarith
    have hdp0 : dp ≠ 0 := by
      rintro rfl
      apply hl
      simpa using hdx
    rcases dir_cases hd with ⟨hu, ha⟩ | ⟨hu, ha⟩
    · have hsty : s.stp < s.sty := by
        rcases le_total s.stx s.sty with h | h
        · rw [max_eq_right h] at hsb; exact hsb.2
        · rw [max_eq_left h] at hsb; linarith [hsb.2]
      have hdp : dp < 0 := by
        rcases lt_or_gt_of_ne hdp0 with h | h
        · exact h
        · nlinarith
      have hne : s.sty - s.stp ≠ 0 := by linarith
      have hδ : 0 ≤ (s.fy - fp) / (s.sty - s.stp) := div_nonneg (by linarith) (by linarith)
      have ht : (fp - s.fy) * 3 / (s.sty - s.stp) + s.dy + dp = -3 * ((s.fy - fp) / (s.sty - s.stp)) + dp + s.dy := by ring
      have K := cubic_up (b := s.dy) hdp hδ
      simp only at K
      obtain ⟨h0, hq, hr0, hr1⟩ := K
      generalize htt : -3 * ((s.fy - fp) / (s.sty - s.stp)) + dp + s.dy = t at *
      have h0' : 0 ≤ t * t - s.dy * dp := by nlinarith
      have hg : t * t - s.dy * dp = t * t - dp * s.dy := by ring
      have hlt : ¬ s.stp > s.sty := by linarith
      refine ⟨_, ?_, fun _ => hbet _ hr0 hr1, by simp⟩
      simp only [cdiv_eq hne, ht, gammaOf_eq (Or.inr hdp0) h0', hg, Option.bind_eq_bind, Option.bind_some, if_neg hlt,
          cdiv_eq hq.ne']
    · have hsty : s.sty < s.stp := by
        rcases le_total s.stx s.sty with h | h
        · rw [min_eq_left h] at hsb; linarith [hsb.1]
        · rw [min_eq_right h] at hsb; exact hsb.1
      have hdp : 0 < dp := by
        rcases lt_or_gt_of_ne hdp0 with h | h
        · nlinarith
        · exact h
      have hne : s.sty - s.stp ≠ 0 := by linarith
      have hδ : 0 ≤ (s.fy - fp) / (s.stp - s.sty) := div_nonneg (by linarith) (by linarith)
      have e0 : (fp - s.fy) / (s.sty - s.stp) = (s.fy - fp) / (s.stp - s.sty) := by
        rw [← neg_sub s.fy, ← neg_sub s.stp, neg_div_neg_eq]
      have ht : (fp - s.fy) * 3 / (s.sty - s.stp) + s.dy + dp = -(-3 * ((s.fy - fp) / (s.stp - s.sty)) + -dp + -s.dy) := by
        rw [← e0]; ring
      have K := cubic_up (a := -dp) (b := -s.dy) (neg_lt_zero.mpr hdp) hδ
      simp only at K
      obtain ⟨h0, hq, hr0, hr1⟩ := K
      generalize htt : -3 * ((s.fy - fp) / (s.stp - s.sty)) + -dp + -s.dy = t at *
      have h0' : 0 ≤ -t * -t - s.dy * dp := by nlinarith
      have hg : -t * -t - s.dy * dp = t * t - -dp * -s.dy := by ring
      generalize hgg : Real.sqrt (t * t - -dp * -s.dy) = g at *
      have hlt : s.stp > s.sty := by linarith
      have hq' : -g - dp + -g + s.dy ≠ 0 := by intro h; apply hq.ne'; linarith
      have hr' : (-g - dp + -t) / (-g - dp + -g + s.dy) = (g - -dp + t) / (g - -dp + g + -s.dy) := by
        rw [← neg_div_neg_eq]; congr 1 <;> ring
      refine ⟨_, ?_, fun _ => hbet _ hr0 hr1, by simp⟩
      simp only [cdiv_eq hne, ht, gammaOf_eq (Or.inr hdp0) h0', hg, hgg, Option.bind_eq_bind, Option.bind_some, if_pos hlt,
          cdiv_eq hq', hr']

end Mpb.Linmin

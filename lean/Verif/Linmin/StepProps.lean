import Verif.Linmin.Lemmas

/-!
# C25: the safeguarded step `dcstep`
-/

namespace Mpb.Linmin

open Spec

theorem sgn_lt {dp dx : ℝ} (h : dx ≠ 0) : dp * (dx / |dx|) < 0 ↔ dp * dx < 0 := by
  have hp := abs_pos.mpr h
  rw [← mul_div_assoc, div_lt_iff₀ hp, zero_mul]

/-- The shape of the result of `dcstep`, without any assumption: whenever it returns, it returns this. -/
theorem dcstep_shape {s s' : Step} {fp dp lo hi : ℝ} (h : dcstep s fp dp lo hi = some s') :
    s.dx ≠ 0 ∧
    (s.fx < fp → s'.stx = s.stx ∧ s'.fx = s.fx ∧ s'.dx = s.dx ∧ s'.sty = s.stp ∧ s'.fy = fp ∧ s'.dy = dp ∧ s'.brackt = true) ∧
    (fp ≤ s.fx → s'.stx = s.stp ∧ s'.fx = fp ∧ s'.dx = dp) ∧
    (fp ≤ s.fx → dp * s.dx < 0 → s'.sty = s.stx ∧ s'.fy = s.fx ∧ s'.dy = s.dx ∧ s'.brackt = true) ∧
    (fp ≤ s.fx → 0 ≤ dp * s.dx → s'.sty = s.sty ∧ s'.fy = s.fy ∧ s'.dy = s.dy ∧ s'.brackt = s.brackt) := by
  unfold dcstep at h
  simp only [Option.bind_eq_bind, Option.bind_eq_some_iff] at h
  obtain ⟨sg, hsg, stpf, hstpf, h⟩ := h
  obtain ⟨hn, rfl⟩ := cdiv_some hsg
  have hdx : s.dx ≠ 0 := abs_ne_zero.mp hn
  refine ⟨hdx, ?_, ?_, ?_, ?_⟩
  · intro hf
    rw [if_pos hf, if_pos hf] at h
    cases h
    simp
  · intro hf
    rw [if_neg (not_lt.mpr hf)] at h
    split at h <;> cases h <;> simp
  · intro hf hs
    rw [if_neg (not_lt.mpr hf), if_neg (not_lt.mpr hf), if_pos ((sgn_lt hdx).mpr hs), if_pos ((sgn_lt hdx).mpr hs)] at h
    cases h
    simp
  · intro hf hs
    have hn : ¬ dp * (s.dx / |s.dx|) < 0 := fun h => not_lt.mpr hs ((sgn_lt hdx).mp h)
    rw [if_neg (not_lt.mpr hf), if_neg (not_lt.mpr hf), if_neg hn, if_neg hn] at h
    cases h
    simp

/-- C25: under the documented precondition `dcstep` computes no NaN and
* the best point afterwards is the better of the old best point and the trial point, with its own function value and derivative;
* the other end point is one of the three points known, with its own function value and derivative;
* a bracketed minimiser stays bracketed, and it becomes bracketed exactly if the trial point is higher or its slope has the opposite sign;
* if bracketed, the next trial step is in the bracket, the best point is not above the other end, the bracket is not degenerate, it is
  contained in the old bracket, and (unless the slope is exactly zero at the best point) the function decreases from the best point into
  the bracket;
* if not bracketed, the next trial step is within the given limits. -/
theorem C25_step (s : Step) (fp dp lo hi : ℝ) (hpre : DocPre s lo hi) :
    ∃ s', dcstep s fp dp lo hi = some s' ∧
      (s'.fx = min s.fx fp) ∧
      ((s'.stx, s'.fx, s'.dx) = (s.stx, s.fx, s.dx) ∨ (s'.stx, s'.fx, s'.dx) = (s.stp, fp, dp)) ∧
      ((s'.sty, s'.fy, s'.dy) = (s.sty, s.fy, s.dy) ∨ (s'.sty, s'.fy, s'.dy) = (s.stx, s.fx, s.dx) ∨
        (s'.sty, s'.fy, s'.dy) = (s.stp, fp, dp)) ∧
      (s'.stx = s.stp ∨ s'.sty = s.stp) ∧
      (s'.brackt = true ↔ s.brackt = true ∨ s.fx < fp ∨ dp * s.dx < 0) ∧
      (s'.brackt = true → Between s'.stx s'.sty s'.stp ∧ s'.fx ≤ s'.fy ∧ s'.stx ≠ s'.sty) ∧
      (s.brackt = true → min s.stx s.sty ≤ min s'.stx s'.sty ∧ max s'.stx s'.sty ≤ max s.stx s.sty) ∧
      (s'.brackt = true → s'.dx ≠ 0 → s'.dx * (s'.sty - s'.stx) < 0) ∧
      (s'.brackt = false → lo ≤ s'.stp ∧ s'.stp ≤ hi) := by
  obtain ⟨hd, hlim, hin, hlow, hin2⟩ := hpre
  have hne : s.stp ≠ s.stx := by rintro h; rw [h] at hd; simp at hd
  have hdx : s.dx ≠ 0 := by rintro h; rw [h] at hd; simp at hd
  have hcd : cdiv s.dx |s.dx| = some (s.dx / |s.dx|) := cdiv_eq (abs_ne_zero.mpr hdx)
  -- bracket geometry
  have hgeo : s.brackt = true → s.stp ≠ s.sty ∧ 0 < (s.stp - s.stx) * (s.sty - s.stp) ∧
      Between s.stx s.sty s.stp := by
    intro hb
    have h := hin hb
    unfold StrictlyBetween at h
    refine ⟨?_, ?_, h.1.le, h.2.le⟩
    · rintro he
      rcases le_total s.stx s.sty with h' | h'
      · rw [max_eq_right h', he] at h; exact lt_irrefl _ h.2
      · rw [min_eq_right h', he] at h; exact lt_irrefl _ h.1
    · rcases le_total s.stx s.sty with h' | h'
      · rw [max_eq_right h', min_eq_left h'] at h; nlinarith
      · rw [max_eq_left h', min_eq_right h'] at h; nlinarith
  have hnest : ∀ a b : ℝ, s.brackt = true → (a = s.stx ∨ a = s.sty ∨ a = s.stp) → (b = s.stx ∨ b = s.sty ∨ b = s.stp) →
      min s.stx s.sty ≤ min a b ∧ max a b ≤ max s.stx s.sty := by
    intro a b hb ha hb'
    have h := (hgeo hb).2.2
    have pt : ∀ c : ℝ, (c = s.stx ∨ c = s.sty ∨ c = s.stp) → min s.stx s.sty ≤ c ∧ c ≤ max s.stx s.sty := by
      rintro c (rfl | rfl | rfl)
      · exact ⟨min_le_left _ _, le_max_left _ _⟩
      · exact ⟨min_le_right _ _, le_max_right _ _⟩
      · exact h
    exact ⟨le_min (pt a ha).1 (pt b hb').1, max_le (pt a ha).2 (pt b hb').2⟩
  unfold dcstep
  simp only [hcd, Option.bind_eq_bind, Option.bind_some]
  by_cases hf : fp > s.fx
  · obtain ⟨x, hx, hbx⟩ := case1_spec s fp dp hd hf
    simp only [if_pos hf, hx, Option.bind_some]
    refine ⟨_, rfl, (min_eq_left hf.le).symm, Or.inl rfl, Or.inr (Or.inr rfl), Or.inr rfl, by simp [hf], ?_, ?_, ?_, by simp⟩
    · intro _; exact ⟨hbx, hf.le, fun h => hne h.symm⟩
    · intro hb; exact hnest _ _ hb (Or.inl rfl) (Or.inr (Or.inr rfl))
    · intro _ _; exact hd
  · have hf' : fp ≤ s.fx := not_lt.mp hf
    simp only [if_neg hf]
    by_cases hs : dp * s.dx < 0
    · obtain ⟨x, hx, hbx⟩ := case2_spec s fp dp hd hf' hs
      have hs' := (sgn_lt hdx).mpr hs
      simp only [if_pos hs', hx, Option.bind_some]
      refine ⟨_, rfl, (min_eq_right hf').symm, Or.inr rfl, Or.inr (Or.inl rfl), Or.inl rfl, by simp [hs], ?_, ?_, ?_, by simp⟩
      · intro _
        refine ⟨?_, hf', hne⟩
        unfold Between at hbx ⊢
        rw [min_comm, max_comm]
        exact hbx
      · intro hb; exact hnest _ _ hb (Or.inr (Or.inr rfl)) (Or.inl rfl)
      · intro _ _
        simp only
        rcases dir_cases hd with ⟨hu, ha⟩ | ⟨hu, ha⟩
        · have : 0 < dp := by nlinarith
          nlinarith
        · have : dp < 0 := by nlinarith
          nlinarith
    · have hs0 : 0 ≤ dp * s.dx := not_lt.mp hs
      have hs' : ¬ dp * (s.dx / |s.dx|) < 0 := fun h => hs ((sgn_lt hdx).mp h)
      simp only [if_neg hs']
      have main : ∀ x, (s.brackt = true → Between s.stp s.sty x) → (s.brackt = false → lo ≤ x ∧ x ≤ hi) →
          ∃ s', some { s with stx := s.stp, fx := fp, dx := dp, stp := x, brackt := s.brackt } = some s' ∧
      (s'.fx = min s.fx fp) ∧
      ((s'.stx, s'.fx, s'.dx) = (s.stx, s.fx, s.dx) ∨ (s'.stx, s'.fx, s'.dx) = (s.stp, fp, dp)) ∧
      ((s'.sty, s'.fy, s'.dy) = (s.sty, s.fy, s.dy) ∨ (s'.sty, s'.fy, s'.dy) = (s.stx, s.fx, s.dx) ∨
        (s'.sty, s'.fy, s'.dy) = (s.stp, fp, dp)) ∧
      (s'.stx = s.stp ∨ s'.sty = s.stp) ∧
      (s'.brackt = true ↔ s.brackt = true ∨ s.fx < fp ∨ dp * s.dx < 0) ∧
      (s'.brackt = true → Between s'.stx s'.sty s'.stp ∧ s'.fx ≤ s'.fy ∧ s'.stx ≠ s'.sty) ∧
      (s.brackt = true → min s.stx s.sty ≤ min s'.stx s'.sty ∧ max s'.stx s'.sty ≤ max s.stx s.sty) ∧
      (s'.brackt = true → s'.dx ≠ 0 → s'.dx * (s'.sty - s'.stx) < 0) ∧
      (s'.brackt = false → lo ≤ s'.stp ∧ s'.stp ≤ hi) := by
        intro x h1 h2
        refine ⟨_, rfl, (min_eq_right hf').symm, Or.inr rfl, Or.inl rfl, Or.inl rfl, by simp [hf', hs0, not_lt], ?_, ?_, ?_, h2⟩
        · intro hb
          exact ⟨h1 hb, hf'.trans (hlow hb), (hgeo hb).1⟩
        · intro hb; exact hnest _ _ hb (Or.inr (Or.inr rfl)) (Or.inr (Or.inl rfl))
        · intro hb hdp
          simp only at hdp ⊢
          have hg := (hgeo hb).2.1
          rcases dir_cases hd with ⟨hu, ha⟩ | ⟨hu, ha⟩
          · have : dp < 0 := by
              rcases lt_or_gt_of_ne hdp with h | h
              · exact h
              · nlinarith
            have : 0 < s.sty - s.stp := by
              rcases lt_or_ge 0 (s.sty - s.stp) with h | h
              · exact h
              · nlinarith
            nlinarith
          · have : 0 < dp := by
              rcases lt_or_gt_of_ne hdp with h | h
              · nlinarith
              · exact h
            have : s.sty - s.stp < 0 := by
              rcases lt_or_ge (s.sty - s.stp) 0 with h | h
              · exact h
              · nlinarith
            nlinarith
      by_cases hl : |dp| < |s.dx|
      · obtain ⟨x, hx, h1, h2⟩ := case3_spec s fp dp lo hi hd hs0 hl hlim hin hin2
        simp only [if_pos hl, hx, Option.bind_some]
        exact main x h1 h2
      · obtain ⟨x, hx, h1, h2⟩ := case4_spec s fp dp lo hi hd hs0 hl hlim hin (fun hb => hf'.trans (hlow hb))
        simp only [if_neg hl, hx, Option.bind_some]
        exact main x h1 h2

/-- The hypotheses of `C25_step` are met by a bracketed backward search (best point 2, other end 0, trial 1). -/
example : DocPre ⟨2, -1, 1, 0, 3, -2, 1, true⟩ 0 2 := by
  constructor <;> simp [StrictlyBetween] <;> norm_num

/-- ... and by an unbracketed forward search. -/
example : DocPre ⟨0, 0, -1, 0, 0, -1, 1, false⟩ 0 5 := by
  constructor <;> simp

/-- A parabola: one step of `dcstep` with the exact data of `(x-1)²` at `0` and `4` (trial point higher, slope reversed) gives a step between the
two points. -/
example : ∃ s', dcstep ⟨0, 1, -2, 0, 1, -2, 4, false⟩ 9 6 0 5 = some s' ∧ s'.brackt = true ∧ s'.stx = 0 ∧ s'.sty = 4 ∧ 0 ≤ s'.stp ∧ s'.stp ≤ 4 := by
  obtain ⟨s', h, hfx, h1, h2, h3, h4, h5, -, -⟩ := C25_step ⟨0, 1, -2, 0, 1, -2, 4, false⟩ 9 6 0 5 (by constructor <;> simp <;> norm_num)
  have hs := dcstep_shape h
  have hb : s'.brackt = true := h4.mpr (Or.inr (Or.inl (by norm_num)))
  have e := hs.2.1 (by norm_num)
  obtain ⟨e1, -, -, e2, -⟩ := e
  refine ⟨s', h, hb, e1, e2, ?_⟩
  have := (h5 hb).1
  rw [e1, e2] at this
  simpa [Between] using this

end Mpb.Linmin

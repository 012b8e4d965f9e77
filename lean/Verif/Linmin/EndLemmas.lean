import Verif.Linmin.Props

/-!
# Lemmas for C122: the line search ends
-/

namespace Mpb.Linmin

open Spec

/-- The search, asked for an evaluation at `x` with the work arrays `w`, ends after finitely many evaluations. -/
def Ends (P : Par) (φ : ℝ → ℝ × ℝ) (x : ℝ) (w : Saved) : Prop :=
  ∃ N, ∀ n ≥ N, ∀ f g, loop P φ n x f g .fg w ≠ .running

theorem ends_of_step {P : Par} {φ : ℝ → ℝ × ℝ} {x : ℝ} {w : Saved}
    (h : ∀ t' x' w', dcsrch P .fg x (φ x).1 (φ x).2 w = some (t', x', w') → t' = .fg → Ends P φ x' w') : Ends P φ x w := by
  cases hd : dcsrch P .fg x (φ x).1 (φ x).2 w with
  | none =>
    refine ⟨1, fun n hn f g => ?_⟩
    obtain ⟨n, rfl⟩ : ∃ m, n = m + 1 := ⟨n - 1, by omega⟩
    rw [loop, if_pos rfl, hd]
    simp
  | some r =>
    obtain ⟨t', x', w'⟩ := r
    by_cases ht : t' = .fg
    · obtain ⟨N, hN⟩ := h _ _ _ hd ht
      refine ⟨N + 1, fun n hn f g => ?_⟩
      obtain ⟨n, rfl⟩ : ∃ m, n = m + 1 := ⟨n - 1, by omega⟩
      rw [loop, if_pos rfl, hd]
      subst ht
      exact hN n (by omega) _ _
    · refine ⟨2, fun n hn f g => ?_⟩
      obtain ⟨n, rfl⟩ : ∃ m, n = m + 2 := ⟨n - 2, by omega⟩
      rw [loop, if_pos rfl, hd]
      simp only
      rw [loop, if_neg ht]
      split <;> simp

/-- The call uses the modified function. -/
def Mod (l : Local) (stp f : ℝ) : Prop := l.stage = 1 ∧ f ≤ l.fx ∧ f > l.finit + stp * l.gtest

/-- What the call of `dcstep` does with the interval. -/
theorem stepCall_cases {l l' : Local} {stp f g x' : ℝ} (h : stepCall l stp f g = some (l', x')) :
    (l'.brackt = true ∧ l'.stx = l.stx ∧ l'.sty = stp ∧ l'.gx = l.gx ∧ (¬ Mod l stp f → l.fx < f)) ∨
    (l'.brackt = true ∧ l'.stx = stp ∧ l'.sty = l.stx ∧ l'.gx = g ∧
      (Mod l stp f → f - stp * l.gtest ≤ l.fx - l.stx * l.gtest) ∧ (¬ Mod l stp f → g * l.gx < 0 ∧ f ≤ l.fx)) ∨
    (l'.brackt = l.brackt ∧ l'.stx = stp ∧ l'.sty = l.sty ∧ l'.gx = g ∧
      (Mod l stp f → f - stp * l.gtest ≤ l.fx - l.stx * l.gtest) ∧ (¬ Mod l stp f → 0 ≤ g * l.gx ∧ l.gx ≠ 0 ∧ f ≤ l.fx)) := by
  unfold stepCall at h
  simp only at h
  split_ifs at h with hm
  · have hM : Mod l stp f := hm
    simp only [Option.bind_eq_bind, Option.bind_eq_some_iff] at h
    obtain ⟨s, hs, he⟩ := h
    obtain ⟨hdx, c1, c2, c3, c4⟩ := dcstep_shape hs
    simp only at c1 c2 c3 c4 hdx
    simp only [Option.some.injEq, Prod.mk.injEq] at he
    obtain ⟨rfl, -⟩ := he
    rcases lt_or_ge (l.fx - l.stx * l.gtest) (f - stp * l.gtest) with hf | hf
    · obtain ⟨a1, a2, a3, a4, a5, a6, a7⟩ := c1 hf
      left
      simp only [a1, a3, a4, a7]
      exact ⟨trivial, trivial, trivial, by ring, fun hn => absurd hM hn⟩
    · obtain ⟨a1, a2, a3⟩ := c2 hf
      rcases lt_or_ge ((g - l.gtest) * (l.gx - l.gtest)) 0 with hg | hg
      · obtain ⟨b1, b2, b3, b4⟩ := c3 hf hg
        right; left
        simp only [a1, a3, b1, b4]
        exact ⟨trivial, trivial, trivial, by ring, fun _ => hf, fun hn => absurd hM hn⟩
      · obtain ⟨b1, b2, b3, b4⟩ := c4 hf hg
        right; right
        simp only [a1, a3, b1, b4]
        exact ⟨trivial, trivial, trivial, by ring, fun _ => hf, fun hn => absurd hM hn⟩
  · have hM : ¬ Mod l stp f := hm
    simp only [Option.bind_eq_bind, Option.bind_eq_some_iff] at h
    obtain ⟨s, hs, he⟩ := h
    obtain ⟨hdx, c1, c2, c3, c4⟩ := dcstep_shape hs
    simp only at c1 c2 c3 c4 hdx
    simp only [Option.some.injEq, Prod.mk.injEq] at he
    obtain ⟨rfl, -⟩ := he
    rcases lt_or_ge l.fx f with hf | hf
    · obtain ⟨a1, a2, a3, a4, a5, a6, a7⟩ := c1 hf
      left
      exact ⟨a7, a1, a4, a3, fun _ => hf⟩
    · obtain ⟨a1, a2, a3⟩ := c2 hf
      rcases lt_or_ge (g * l.gx) 0 with hg | hg
      · obtain ⟨b1, b2, b3, b4⟩ := c3 hf hg
        right; left
        exact ⟨b4, a1, b1, a3, fun hn => absurd hn hM, fun _ => ⟨hg, hf⟩⟩
      · obtain ⟨b1, b2, b3, b4⟩ := c4 hf hg
        right; right
        exact ⟨b4, a1, b1, a3, fun hn => absurd hn hM, fun _ => ⟨hg, hdx, hf⟩⟩

/-- The locals after the update of the stage. -/
noncomputable def staged (l : Local) (x f g : ℝ) : Local :=
  { l with stage := open Classical in if l.stage = 1 ∧ f ≤ l.finit + x * l.gtest ∧ g ≥ 0 then 2 else l.stage }

theorem dcsrch_cont {P : Par} {x f g : ℝ} {w w' : Saved} {x' : ℝ} (h : dcsrch P .fg x f g w = some (.fg, x', w')) :
    ∃ l1 x1, stepCall (staged (restore w) x f g) x f g = some (l1, x1) ∧
      restore w' = (finish P l1 x1).1 ∧ x' = (finish P l1 x1).2 ∧
      (testTask P (staged (restore w) x f g) x f g).isWarn = false ∧ testTask P (staged (restore w) x f g) x f g ≠ .conv := by
  unfold dcsrch at h
  simp only [reduceCtorEq, if_false] at h
  change (if (testTask P (staged (restore w) x f g) x f g).isWarn = true ∨ testTask P (staged (restore w) x f g) x f g = .conv then _
    else _) = _ at h
  by_cases hs : (testTask P (staged (restore w) x f g) x f g).isWarn = true ∨ testTask P (staged (restore w) x f g) x f g = .conv
  · rw [if_pos hs] at h
    simp only [Option.some.injEq, Prod.mk.injEq] at h
    have hq : testTask P (staged (restore w) x f g) x f g = .fg := h.1
    rw [hq] at hs
    simp [Task.isWarn] at hs
  · rw [if_neg hs] at h
    push Not at hs
    simp only [Option.bind_eq_bind, Option.bind_eq_some_iff] at h
    obtain ⟨⟨l1, x1⟩, hsc, h⟩ := h
    simp only [Option.some.injEq, Prod.mk.injEq, true_and] at h
    obtain ⟨rfl, rfl⟩ := h
    refine ⟨l1, x1, hsc, C24_save_restore _ _, rfl, by simpa using hs.1, hs.2⟩

/-- If the search goes on, the step is strictly inside the bracket and the bracket is not yet small. -/
theorem testTask_go {P : Par} {l : Local} {stp f g : ℝ} (h : (testTask P l stp f g).isWarn = false)
    (h2 : testTask P l stp f g ≠ .conv) (hb : l.brackt = true) :
    l.stmin < stp ∧ stp < l.stmax ∧ P.xtol * l.stmax < l.stmax - l.stmin := by
  unfold testTask at h h2
  simp only at h h2
  refine ⟨?_, ?_, ?_⟩
  · by_contra hc
    have : l.brackt = true ∧ (stp ≤ l.stmin ∨ stp ≥ l.stmax) := ⟨hb, Or.inl (not_lt.mp hc)⟩
    simp only [if_pos this] at h h2
    split_ifs at h h2 <;> simp_all [Task.isWarn]
  · by_contra hc
    have : l.brackt = true ∧ (stp ≤ l.stmin ∨ stp ≥ l.stmax) := ⟨hb, Or.inr (not_lt.mp hc)⟩
    simp only [if_pos this] at h h2
    split_ifs at h h2 <;> simp_all [Task.isWarn]
  · by_contra hc
    have : l.brackt = true ∧ l.stmax - l.stmin ≤ P.xtol * l.stmax := ⟨hb, not_lt.mp hc⟩
    simp only [if_pos this] at h h2
    split_ifs at h h2 <;> simp_all [Task.isWarn]

/-- What `finish` leaves if a minimiser is bracketed. -/
theorem finish_brackt {P : Par} {l : Local} {x : ℝ} (hb : l.brackt = true) :
    (finish P l x).1.brackt = true ∧ (finish P l x).1.stx = l.stx ∧ (finish P l x).1.sty = l.sty ∧
    (finish P l x).1.stage = l.stage ∧ (finish P l x).1.gx = l.gx ∧
    (finish P l x).1.stmin = min l.stx l.sty ∧ (finish P l x).1.stmax = max l.stx l.sty ∧
    (finish P l x).1.width = |l.sty - l.stx| ∧ (finish P l x).1.width1 = l.width ∧
    (|l.sty - l.stx| < l.width1 * 0.66 ∨
      (finish P l x).2 = min (max (l.stx + (l.sty - l.stx) * 0.5) P.stpmin) P.stpmax ∨ (finish P l x).2 = l.stx) := by
  unfold finish
  simp only [hb, true_and, if_true]
  by_cases hw : |l.sty - l.stx| ≥ l.width1 * 0.66
  · right
    rw [if_pos hw]
    split_ifs
    · right; rfl
    · left; rfl
  · left
    exact not_le.mp hw

/-- What `finish` leaves otherwise. -/
theorem finish_free {P : Par} {l : Local} {x : ℝ} (hb : l.brackt = false) :
    (finish P l x).1 = { l with stmin := x + (x - l.stx) * 1.1, stmax := x + (x - l.stx) * 4 } ∧
    (finish P l x).2 = min (max x P.stpmin) P.stpmax := by
  unfold finish
  simp [hb]

/-- Case 3 without a bracket, going forward: the next trial step is beyond the last one. -/
theorem case3_forward {s : Step} {fp dp lo hi y : ℝ} (hd : s.dx < 0) (hs : s.stx < s.stp) (hdp : dp < 0) (hl : |dp| < |s.dx|)
    (hb : s.brackt = false) (hhi : s.stp < hi) (h : case3 s fp dp lo hi = some y) : s.stp < y := by
  have hdd : s.dx * (s.stp - s.stx) < 0 := mul_neg_of_neg_of_pos hd (by linarith)
  obtain ⟨c, hc, hc1, -⟩ := case3cubic_spec s fp dp lo hi hdd (by nlinarith) hl
  have hnd : dp - s.dx ≠ 0 := by
    intro h
    have : dp = s.dx := by linarith
    rw [this] at hl
    exact lt_irrefl _ hl
  simp only [case3, hc, cdiv_eq hnd, Option.bind_eq_bind, Option.bind_some, hb, Bool.false_eq_true, if_false] at h
  have hcc : s.stp < c := by
    rcases hc1 hs with h | h
    · exact h
    · rw [h]; exact hhi
  have hpos : 0 < dp - s.dx := by
    rw [abs_of_neg hd] at hl
    linarith [neg_abs_le dp]
  have hq : s.stp < s.stp + dp / (dp - s.dx) * (s.stx - s.stp) := by
    have := div_neg_of_neg_of_pos hdp hpos
    nlinarith
  simp only [Option.some.injEq] at h
  rw [← h]
  refine lt_of_lt_of_le (lt_min hhi ?_) (le_max_right _ _)
  split <;> assumption

/-- One call of `dcstep` without a bracket, going forward and down: the next trial step is beyond the last one. -/
theorem dcstep_forward {s s' : Step} {fp dp lo hi : ℝ} (hd : s.dx < 0) (hs : s.stx < s.stp) (hdp : dp < 0) (hf : fp ≤ s.fx)
    (hb : s.brackt = false) (hhi : s.stp < hi) (hlo : lo ≤ hi) (h : dcstep s fp dp lo hi = some s') :
    s'.brackt = false ∧ s.stp < s'.stp ∧ lo ≤ s'.stp := by
  have hdd : s.dx * (s.stp - s.stx) < 0 := mul_neg_of_neg_of_pos hd (by linarith)
  obtain ⟨s2, h2, h3⟩ := C25_step s fp dp lo hi ⟨hdd, hlo, by simp [hb], by simp [hb], by simp [hb]⟩
  rw [h] at h2
  cases h2
  have hbr : s'.brackt = false := by
    rw [← Bool.not_eq_true]
    intro hc
    rcases h3.2.2.2.2.1.mp hc with h | h | h
    · rw [hb] at h; exact absurd h (by simp)
    · exact absurd h (not_lt.mpr hf)
    · nlinarith
  refine ⟨hbr, ?_, (h3.2.2.2.2.2.2.2.2 hbr).1⟩
  unfold dcstep at h
  simp only [Option.bind_eq_bind, Option.bind_eq_some_iff] at h
  obtain ⟨sg, hsg, stpf, hstpf, h⟩ := h
  obtain ⟨hn, rfl⟩ := cdiv_some hsg
  have hns : ¬ dp * (s.dx / |s.dx|) < 0 := fun h => not_lt.mpr (by nlinarith) ((sgn_lt hd.ne).mp h)
  rw [if_neg (not_lt.mpr hf), if_neg hns] at hstpf
  rw [if_neg (not_lt.mpr hf), if_neg hns] at h
  cases h
  simp only
  by_cases hl : |dp| < |s.dx|
  · rw [if_pos hl] at hstpf
    exact case3_forward hd hs hdp hl hb hhi hstpf
  · rw [if_neg hl] at hstpf
    unfold case4 at hstpf
    simp only [hb, Bool.false_eq_true, if_false, Option.some.injEq] at hstpf
    rw [← hstpf, if_pos hs]
    exact hhi

/-- The state of the search once a minimiser is bracketed. -/
structure Br (P : Par) (φ : ℝ → ℝ × ℝ) (f0 g0 : ℝ) (l : Local) (x : ℝ) : Prop where
  inv : Inv P φ f0 g0 l x
  br : l.brackt = true
  lo : l.stmin = min l.stx l.sty
  hi : l.stmax = max l.stx l.sty
  nonneg : 0 ≤ l.stmin
  le : l.stmax ≤ P.stpmax
  width : l.width = |l.sty - l.stx|
  zero : l.sty = 0 → l.stage ≠ 1 ∧ 0 ≤ l.gx

theorem Br.len {P : Par} {φ : ℝ → ℝ × ℝ} {f0 g0 : ℝ} {l : Local} {x : ℝ} (h : Br P φ f0 g0 l x) : l.width = l.stmax - l.stmin := by
  rw [h.width, h.hi, h.lo, max_sub_min_eq_abs]

/-- One more evaluation with a bracket. -/
theorem br_step {P : Par} {φ : ℝ → ℝ × ℝ} {f0 g0 x x' : ℝ} {w w' : Saved} (h0 : P.stpmin = 0) (hP : 0 ≤ P.stpmax)
    (hφ : φ 0 = (f0, g0)) (hg0 : g0 < 0) (hV : Br P φ f0 g0 (restore w) x)
    (h : dcsrch P .fg x (φ x).1 (φ x).2 w = some (.fg, x', w')) :
    Br P φ f0 g0 (restore w') x' ∧ (restore w).stmin < x ∧ x < (restore w).stmax ∧
    P.xtol * (restore w).stmax < (restore w).stmax - (restore w).stmin ∧
    (restore w).stmin ≤ (restore w').stmin ∧ (restore w').stmax ≤ (restore w).stmax ∧
    (restore w').width1 = (restore w).width ∧
    ((restore w').width < (restore w).width1 * 0.66 ∨ x' = ((restore w').stmin + (restore w').stmax) / 2 ∨ x' = (restore w').stx) ∧
    ((restore w').width = x - (restore w).stmin ∨ (restore w').width = (restore w).stmax - x) ∧
    ((restore w).stx = 0 → (φ x).1 ≤ f0 + x * (P.ftol * g0) → (φ x).1 ≤ f0 → (φ x).2 < 0 → 0 < (restore w').stmin) := by
  have hI' := (dcsrch_fg (by rw [h0]; exact hP) hV.inv h).1
  obtain ⟨l1, x1, hsc, hw', hx', ht1, ht2⟩ := dcsrch_cont h
  obtain ⟨k1, k2, k3⟩ := testTask_go ht1 ht2 hV.br
  have k1 : (restore w).stmin < x := k1
  have k2 : x < (restore w).stmax := k2
  have k3 : P.xtol * (restore w).stmax < (restore w).stmax - (restore w).stmin := k3
  have hcase := stepCall_cases hsc
  obtain ⟨-, -, -, s4, s5, s6, -, -⟩ := stepCall_spec hsc
  have s5 : l1.width = (restore w).width := s5
  have s6 : l1.width1 = (restore w).width1 := s6
  have hbr1 : l1.brackt = true := by
    rcases hcase with hc | hc | hc
    · exact hc.1
    · exact hc.1
    · rw [hc.1]; exact hV.br
  obtain ⟨F1, F2, F3, F4, F5, F6, F7, F8, F9, F10⟩ := finish_brackt (P := P) (x := x1) hbr1
  rw [← hw'] at F1 F2 F3 F4 F5 F6 F7 F8 F9
  rw [← hx'] at F10
  have hlo := hV.lo
  have hhi := hV.hi
  have hnn := hV.nonneg
  have hle := hV.le
  -- the new ends
  have hends : (l1.stx = (restore w).stx ∧ l1.sty = x) ∨ (l1.stx = x ∧ l1.sty = (restore w).stx) ∨
      (l1.stx = x ∧ l1.sty = (restore w).sty) := by
    rcases hcase with hc | hc | hc
    · exact Or.inl ⟨hc.2.1, hc.2.2.1⟩
    · exact Or.inr (Or.inl ⟨hc.2.1, hc.2.2.1⟩)
    · exact Or.inr (Or.inr ⟨hc.2.1, hc.2.2.1⟩)
  have hmm : (min l1.stx l1.sty = (restore w).stmin ∧ max l1.stx l1.sty = x) ∨
      (min l1.stx l1.sty = x ∧ max l1.stx l1.sty = (restore w).stmax) := by
    rw [hlo] at k1 ⊢
    rw [hhi] at k2 ⊢
    rcases le_total (restore w).stx (restore w).sty with ho | ho
    · rw [min_eq_left ho] at k1 ⊢
      rw [max_eq_right ho] at k2 ⊢
      rcases hends with ⟨a, b⟩ | ⟨a, b⟩ | ⟨a, b⟩
      · left; rw [a, b, min_eq_left k1.le, max_eq_right k1.le]; exact ⟨rfl, rfl⟩
      · left; rw [a, b, min_eq_right k1.le, max_eq_left k1.le]; exact ⟨rfl, rfl⟩
      · right; rw [a, b, min_eq_left k2.le, max_eq_right k2.le]; exact ⟨rfl, rfl⟩
    · rw [min_eq_right ho] at k1 ⊢
      rw [max_eq_left ho] at k2 ⊢
      rcases hends with ⟨a, b⟩ | ⟨a, b⟩ | ⟨a, b⟩
      · right; rw [a, b, min_eq_right k2.le, max_eq_left k2.le]; exact ⟨rfl, rfl⟩
      · right; rw [a, b, min_eq_left k2.le, max_eq_right k2.le]; exact ⟨rfl, rfl⟩
      · left; rw [a, b, min_eq_right k1.le, max_eq_left k1.le]; exact ⟨rfl, rfl⟩
  have hwid : (restore w').width = max l1.stx l1.sty - min l1.stx l1.sty := by rw [F8, max_sub_min_eq_abs]
  have hzero : (restore w').sty = 0 → (restore w').stage ≠ 1 ∧ 0 ≤ (restore w').gx := by
    rw [F3, F4, F5, s4]
    intro hz
    rcases hcase with ⟨-, -, e, -⟩ | ⟨-, e1, e2, e3, e4, e5⟩ | ⟨-, e1, e2, e3, e4, e5⟩
    · rw [e] at hz; exfalso; linarith
    · have hsx : (restore w).stx = 0 := by rw [← hz, e2]; rfl
      have hb := hV.inv.best
      rw [hsx, hφ] at hb
      obtain ⟨hb1, hb2⟩ := Prod.mk.inj hb
      by_cases hM : Mod (staged (restore w) x (φ x).1 (φ x).2) x (φ x).1
      · exfalso
        have h1 := e4 hM
        have h2 := hM.2.2
        have h1 : (φ x).1 - x * (restore w).gtest ≤ (restore w).fx - (restore w).stx * (restore w).gtest := h1
        have h2 : (φ x).1 > (restore w).finit + x * (restore w).gtest := h2
        rw [hV.inv.finit] at h2
        rw [hsx, ← hb1] at h1
        linarith
      · obtain ⟨q1, q2⟩ := e5 hM
        have q1 : (φ x).2 * (restore w).gx < 0 := q1
        rw [← hb2] at q1
        have hgp : 0 < (φ x).2 := by
          by_contra hn
          nlinarith
        refine ⟨?_, by rw [e3]; exact hgp.le⟩
        intro hst
        apply hM
        refine ⟨hst, q2, ?_⟩
        by_contra hc
        have hc : (φ x).1 ≤ (restore w).finit + x * (restore w).gtest := not_lt.mp hc
        unfold staged at hst
        simp only at hst
        split_ifs at hst with hk
        · exact absurd hst (by norm_num)
        · exact hk ⟨hst, hc, hgp.le⟩
    · have hsy : (restore w).sty = 0 := by rw [← hz, e2]; rfl
      obtain ⟨z1, z2⟩ := hV.zero hsy
      have hst : (staged (restore w) x (φ x).1 (φ x).2).stage ≠ 1 := by
        unfold staged
        simp only
        split_ifs
        · norm_num
        · exact z1
      refine ⟨hst, ?_⟩
      have hM : ¬ Mod (staged (restore w) x (φ x).1 (φ x).2) x (φ x).1 := fun hM => hst hM.1
      obtain ⟨q1, q2, -⟩ := e5 hM
      have q1 : 0 ≤ (φ x).2 * (restore w).gx := q1
      have q2 : (restore w).gx ≠ 0 := q2
      have : 0 < (restore w).gx := lt_of_le_of_ne z2 (Ne.symm q2)
      rw [e3]
      by_contra hn
      nlinarith
  refine ⟨⟨hI', F1, by rw [F6, F2, F3], by rw [F7, F2, F3], ?_, ?_, by rw [F8, F2, F3], hzero⟩, k1, k2, k3, ?_, ?_, by rw [F9, s5], ?_, ?_, ?_⟩
  · rw [F6]
    rcases hmm with ⟨a, b⟩ | ⟨a, b⟩ <;> rw [a] <;> linarith
  · rw [F7]
    rcases hmm with ⟨a, b⟩ | ⟨a, b⟩ <;> rw [b] <;> linarith
  · rw [F6]
    rcases hmm with ⟨a, b⟩ | ⟨a, b⟩ <;> rw [a]
    exact k1.le
  · rw [F7]
    rcases hmm with ⟨a, b⟩ | ⟨a, b⟩ <;> rw [b]
    exact k2.le
  · rcases F10 with e | e | e
    · left; rw [F8, ← s6]; exact e
    · right; left
      have hmid : l1.stx + (l1.sty - l1.stx) * 0.5 = (min l1.stx l1.sty + max l1.stx l1.sty) / 2 := by
        rw [min_add_max]; ring
      rw [e, hmid, F6, F7, h0]
      rcases hmm with ⟨a, b⟩ | ⟨a, b⟩ <;> rw [a, b, max_eq_left (by linarith), min_eq_left (by linarith)]
    · right; right; rw [e, F2]
  · rw [hwid]
    rcases hmm with ⟨a, b⟩ | ⟨a, b⟩
    · left; rw [a, b]
    · right; rw [a, b]
  · intro hsx hf hf0 hg
    rw [F6]
    have hb := hV.inv.best
    rw [hsx, hφ] at hb
    obtain ⟨hb1, hb2⟩ := Prod.mk.inj hb
    have hM : ¬ Mod (staged (restore w) x (φ x).1 (φ x).2) x (φ x).1 := by
      intro hM
      have h2 : (φ x).1 > (restore w).finit + x * (restore w).gtest := hM.2.2
      rw [hV.inv.finit, hV.inv.gtest] at h2
      linarith
    rcases hcase with ⟨-, e1, e2, -, e3⟩ | ⟨-, e1, e2, e3, e4, e5⟩ | ⟨-, e1, e2, e3, e4, e5⟩
    · exfalso
      have e3 : (restore w).fx < (φ x).1 := e3 hM
      linarith
    · exfalso
      obtain ⟨q1, -⟩ := e5 hM
      have q1 : (φ x).2 * (restore w).gx < 0 := q1
      rw [← hb2] at q1
      nlinarith
    · have hxx : 0 < x := by linarith
      rcases hmm with ⟨a, b⟩ | ⟨a, b⟩
      · rw [e1, e2] at a b
        have : (restore w).sty ≤ x := by
          have := le_max_right x (staged (restore w) x (φ x).1 (φ x).2).sty
          rw [b] at this
          exact this
        exfalso
        rw [hhi, hsx] at k2
        have hs0 : 0 < (restore w).sty := by
          rcases lt_max_iff.mp k2 with h | h
          · linarith
          · linarith
        rw [max_eq_right hs0.le] at k2
        linarith
      · rw [a]; exact hxx

/-- Three more evaluations shrink the bracket to two thirds. -/
theorem br_three {P : Par} {φ : ℝ → ℝ × ℝ} {f0 g0 : ℝ} (h0 : P.stpmin = 0) (hP : 0 ≤ P.stpmax)
    (hφ : φ 0 = (f0, g0)) (hg0 : g0 < 0) {a B : ℝ}
    (hB : ∀ w x, Br P φ f0 g0 (restore w) x → a ≤ (restore w).stmin → (restore w).width ≤ 0.66 * B → Ends P φ x w)
    {w : Saved} {x : ℝ} (hV : Br P φ f0 g0 (restore w) x) (ha : a ≤ (restore w).stmin) (hw : (restore w).width ≤ B) : Ends P φ x w := by
  apply ends_of_step
  rintro _ x1 w1 h1 rfl
  obtain ⟨V1, p1, p2, -, p4, p5, p6, -, p8, -⟩ := br_step h0 hP hφ hg0 hV h1
  have hW := hV.len
  apply ends_of_step
  rintro _ x2 w2 h2 rfl
  obtain ⟨V2, q1, q2, -, q4, q5, q6, q7, q8, -⟩ := br_step h0 hP hφ hg0 V1 h2
  have hW1 := V1.len
  rcases q7 with q7 | q7 | q7
  · refine hB w2 x2 V2 (by linarith) ?_
    rw [p6] at q7
    linarith
  · apply ends_of_step
    rintro _ x3 w3 h3 rfl
    obtain ⟨V3, r1, r2, -, r4, r5, r6, r7, r8, -⟩ := br_step h0 hP hφ hg0 V2 h3
    have hW2 := V2.len
    refine hB w3 x3 V3 (by linarith) ?_
    rcases r8 with r8 | r8 <;> rw [r8] <;> rw [q7] at * <;> linarith
  · apply ends_of_step
    rintro _ x3 w3 h3 rfl
    exfalso
    obtain ⟨-, r1, r2, -⟩ := br_step h0 hP hφ hg0 V2 h3
    rw [q7, V2.lo] at r1
    rw [q7, V2.hi] at r2
    rcases le_total (restore w2).stx (restore w2).sty with ho | ho
    · rw [min_eq_left ho] at r1; exact lt_irrefl _ r1
    · rw [max_eq_left ho] at r2; exact lt_irrefl _ r2

/-- A bracket away from the starting point: the relative tolerance ends the search. -/
theorem br_pos {P : Par} {φ : ℝ → ℝ × ℝ} {f0 g0 : ℝ} (h0 : P.stpmin = 0) (hP : 0 ≤ P.stpmax) (hx : 0 < P.xtol)
    (hφ : φ 0 = (f0, g0)) (hg0 : g0 < 0) {a : ℝ} (ha : 0 < a) (m : ℕ) :
    ∀ (B : ℝ), 0.66 ^ m * B ≤ P.xtol * a → ∀ w x, Br P φ f0 g0 (restore w) x → a ≤ (restore w).stmin → (restore w).width ≤ B →
      Ends P φ x w := by
  induction m with
  | zero =>
    intro B hB w x hV hs hw
    apply ends_of_step
    rintro _ x1 w1 h1 rfl
    exfalso
    obtain ⟨V1, p1, p2, p3, -⟩ := br_step h0 hP hφ hg0 hV h1
    have hW := hV.len
    have : P.xtol * a ≤ P.xtol * (restore w).stmax := mul_le_mul_of_nonneg_left (by linarith) hx.le
    simp only [pow_zero, one_mul] at hB
    linarith
  | succ m ih =>
    intro B hB w x hV hs hw
    refine br_three h0 hP hφ hg0 (a := a) (B := B) ?_ hV hs hw
    intro w2 x2 V2 hs2 hw2
    refine ih (0.66 * B) ?_ w2 x2 V2 hs2 hw2
    rw [pow_succ] at hB
    linarith

theorem pow_small (B : ℝ) {ε : ℝ} (hε : 0 < ε) : ∃ m : ℕ, 0.66 ^ m * B < ε := by
  rcases le_or_gt B 0 with hB | hB
  · exact ⟨0, by simp; linarith⟩
  · obtain ⟨m, hm⟩ := exists_pow_lt_of_lt_one (div_pos hε hB) (by norm_num : (0.66 : ℝ) < 1)
    exact ⟨m, by rwa [lt_div_iff₀ hB] at hm⟩

/-- Near the starting point the function decreases as its slope promises. -/
def Descends (P : Par) (φ : ℝ → ℝ × ℝ) (f0 g0 : ℝ) : Prop :=
  ∃ δ > 0, ∀ x, 0 < x → x < δ → (φ x).1 ≤ f0 + x * (P.ftol * g0) ∧ (φ x).2 < 0

/-- Every search that has bracketed a minimiser ends. -/
theorem br_ends {P : Par} {φ : ℝ → ℝ × ℝ} {f0 g0 : ℝ} (h0 : P.stpmin = 0) (hP : 0 ≤ P.stpmax) (hx : 0 < P.xtol) (hft : 0 ≤ P.ftol)
    (hφ : φ 0 = (f0, g0)) (hg0 : g0 < 0) (hD : Descends P φ f0 g0) {w : Saved} {x : ℝ} (hV : Br P φ f0 g0 (restore w) x) :
    Ends P φ x w := by
  obtain ⟨δ, hδ, hD⟩ := hD
  have hpos : ∀ w x, Br P φ f0 g0 (restore w) x → 0 < (restore w).stmin → Ends P φ x w := by
    intro w x hV hs
    obtain ⟨m, hm⟩ := pow_small (restore w).width (mul_pos hx hs)
    exact br_pos h0 hP hx hφ hg0 hs m _ hm.le w x hV le_rfl le_rfl
  have main : ∀ m : ℕ, ∀ B : ℝ, 0.66 ^ m * B < δ → ∀ w x, Br P φ f0 g0 (restore w) x → 0 ≤ (restore w).stmin →
      (restore w).width ≤ B → Ends P φ x w := by
    intro m
    induction m with
    | zero =>
      intro B hB w x hV hs hw
      rcases hs.lt_or_eq with hs | hs
      · exact hpos w x hV hs
      · apply ends_of_step
        rintro _ x1 w1 h1 rfl
        obtain ⟨V1, p1, p2, p3, p4, p5, p6, p7, p8, p9⟩ := br_step h0 hP hφ hg0 hV h1
        have hW := hV.len
        simp only [pow_zero, one_mul] at hB
        have hxd : x < δ := by linarith
        obtain ⟨d1, d2⟩ := hD x (by linarith) hxd
        refine hpos w1 x1 V1 (p9 ?_ d1 ?_ d2)
        · have hlo := hV.lo
          rw [← hs] at hlo
          rcases le_total (restore w).stx (restore w).sty with ho | ho
          · rw [min_eq_left ho] at hlo; exact hlo.symm
          · rw [min_eq_right ho] at hlo
            exfalso
            obtain ⟨-, z⟩ := hV.zero hlo.symm
            have hhi := hV.hi
            rw [max_eq_left ho] at hhi
            have hb := hV.inv.best
            have := (hD (restore w).stx (by linarith) (by linarith)).2
            rw [hb] at this
            simp only at this
            linarith
        · have : x * (P.ftol * g0) ≤ 0 :=
            mul_nonpos_of_nonneg_of_nonpos (by linarith) (mul_nonpos_of_nonneg_of_nonpos hft hg0.le)
          linarith
    | succ m ih =>
      intro B hB w x hV hs hw
      refine br_three h0 hP hφ hg0 (a := 0) (B := B) ?_ hV hs hw
      intro w2 x2 V2 hs2 hw2
      refine ih (0.66 * B) ?_ w2 x2 V2 hs2 hw2
      rw [pow_succ] at hB
      linarith
  obtain ⟨m, hm⟩ := pow_small (restore w).width hδ
  exact main m _ hm w x hV hV.nonneg le_rfl

/-- The state of the search before a minimiser is bracketed. -/
structure Free (P : Par) (φ : ℝ → ℝ × ℝ) (f0 g0 : ℝ) (l : Local) (x : ℝ) : Prop where
  inv : Inv P φ f0 g0 l x
  br : l.brackt = false
  stage : l.stage = 1
  slope : l.gx < 0
  low : l.fx ≤ f0 + l.stx * (P.ftol * g0)
  pos : 0 ≤ l.stx
  ahead : l.stx < x
  le : x ≤ P.stpmax
  hi : x < P.stpmax → x < l.stmax ∧ l.stmin ≤ l.stmax

/-- One more evaluation without a bracket. -/
theorem free_step {P : Par} {φ : ℝ → ℝ × ℝ} {f0 g0 x x' : ℝ} {w w' : Saved} (h0 : P.stpmin = 0) (hP : 0 ≤ P.stpmax)
    (hgt : 0 ≤ P.gtol) (hg0 : g0 < 0) (hend : f0 + P.stpmax * (P.ftol * g0) < (φ P.stpmax).1)
    (hF : Free P φ f0 g0 (restore w) x)
    (h : dcsrch P .fg x (φ x).1 (φ x).2 w = some (.fg, x', w')) :
    Br P φ f0 g0 (restore w') x' ∨
    (Free P φ f0 g0 (restore w') x' ∧ x < P.stpmax ∧ (restore w').stx = x ∧
      (x' < P.stpmax → (restore w).stmin ≤ x' ∧ (restore w').stmin = x' + (x' - x) * 1.1)) := by
  have hI' := (dcsrch_fg (by rw [h0]; exact hP) hF.inv h).1
  obtain ⟨l1, x1, hsc, hw', hx', ht1, ht2⟩ := dcsrch_cont h
  have hcase := stepCall_cases hsc
  obtain ⟨-, -, -, s4, s5, s6, s7, -⟩ := stepCall_spec hsc
  have hpos := hF.pos
  have hah := hF.ahead
  have hle := hF.le
  have hslope := hF.slope
  have hlow := hF.low
  have hconv : ¬ ((φ x).1 ≤ f0 + x * (P.ftol * g0) ∧ |(φ x).2| ≤ P.gtol * (-g0)) := by
    intro hc
    apply ht2
    rw [testTask_conv]
    have e1 : (staged (restore w) x (φ x).1 (φ x).2).finit = f0 := hF.inv.finit
    have e2 : (staged (restore w) x (φ x).1 (φ x).2).ginit = g0 := hF.inv.ginit
    have e3 : (staged (restore w) x (φ x).1 (φ x).2).gtest = P.ftol * g0 := hF.inv.gtest
    rw [e1, e2, e3]
    exact hc
  have hcases : l1.brackt = true → ((l1.stx = (restore w).stx ∧ l1.sty = x) ∨ (l1.stx = x ∧ l1.sty = (restore w).stx)) →
      (l1.sty = 0 → l1.stage ≠ 1 ∧ 0 ≤ l1.gx) → Br P φ f0 g0 (restore w') x' := by
    intro hb hends hz
    obtain ⟨F1, F2, F3, F4, F5, F6, F7, F8, F9, F10⟩ := finish_brackt (P := P) (x := x1) hb
    rw [← hw'] at F1 F2 F3 F4 F5 F6 F7 F8 F9
    refine ⟨hI', F1, by rw [F6, F2, F3], by rw [F7, F2, F3], ?_, ?_, by rw [F8, F2, F3], by rw [F3, F4, F5]; exact hz⟩
    · rw [F6]
      rcases hends with ⟨a, b⟩ | ⟨a, b⟩ <;> rw [a, b] <;> exact le_min (by linarith) (by linarith)
    · rw [F7]
      rcases hends with ⟨a, b⟩ | ⟨a, b⟩ <;> rw [a, b] <;> exact max_le (by linarith) (by linarith)
  by_cases hM : Mod (staged (restore w) x (φ x).1 (φ x).2) x (φ x).1
  · have h2 : (φ x).1 > (restore w).finit + x * (restore w).gtest := hM.2.2
    rw [hF.inv.finit, hF.inv.gtest] at h2
    have hno : ¬ (φ x).1 - x * (restore w).gtest ≤ (restore w).fx - (restore w).stx * (restore w).gtest := by
      rw [hF.inv.gtest]
      linarith
    rcases hcase with ⟨e0, e1, e2, -⟩ | ⟨-, e1, e2, e3, e4, e5⟩ | ⟨-, e1, e2, e3, e4, e5⟩
    · left
      refine hcases e0 (Or.inl ⟨e1, e2⟩) ?_
      intro hz
      rw [e2] at hz
      linarith
    · exact absurd (e4 hM) hno
    · exact absurd (e4 hM) hno
  · rcases hcase with ⟨e0, e1, e2, -⟩ | ⟨e0, e1, e2, e3, e4, e5⟩ | ⟨e0, e1, e2, e3, e4, e5⟩
    · left
      refine hcases e0 (Or.inl ⟨e1, e2⟩) ?_
      intro hz
      rw [e2] at hz
      linarith
    · left
      refine hcases e0 (Or.inr ⟨e1, e2⟩) ?_
      intro _
      obtain ⟨q1, q2⟩ := e5 hM
      have q1 : (φ x).2 * (restore w).gx < 0 := q1
      have hgp : 0 < (φ x).2 := by
        by_contra hn
        nlinarith
      refine ⟨?_, by rw [e3]; exact hgp.le⟩
      rw [s4]
      intro hst
      apply hM
      refine ⟨hst, q2, ?_⟩
      by_contra hc
      have hc : (φ x).1 ≤ (restore w).finit + x * (restore w).gtest := not_lt.mp hc
      unfold staged at hst
      simp only at hst
      split_ifs at hst with hk
      · exact absurd hst (by norm_num)
      · exact hk ⟨hst, hc, hgp.le⟩
    · right
      obtain ⟨q1, q2, q3⟩ := e5 hM
      have q1 : 0 ≤ (φ x).2 * (restore w).gx := q1
      have q3 : (φ x).1 ≤ (restore w).fx := q3
      have hgn : (φ x).2 ≤ 0 := by
        by_contra hn
        nlinarith
      -- the stage and the value
      have hval : (φ x).1 ≤ f0 + x * (P.ftol * g0) := by
        by_contra hc
        apply hM
        refine ⟨?_, q3, ?_⟩
        · unfold staged
          simp only
          rw [hF.inv.finit, hF.inv.gtest, if_neg (by tauto)]
          exact hF.stage
        · show (φ x).1 > (restore w).finit + x * (restore w).gtest
          rw [hF.inv.finit, hF.inv.gtest]
          exact not_le.mp hc
      have hgs : (φ x).2 < 0 := by
        rcases hgn.lt_or_eq with hh | hh
        · exact hh
        · exfalso
          apply hconv
          refine ⟨hval, ?_⟩
          rw [hh, abs_zero]
          exact mul_nonneg hgt (by linarith)
      have hxlt : x < P.stpmax := by
        rcases hle.lt_or_eq with hh | hh
        · exact hh
        · exfalso
          rw [hh] at hval
          linarith
      have hstage : (staged (restore w) x (φ x).1 (φ x).2).stage = 1 := by
        unfold staged
        simp only
        rw [if_neg (by intro hk; linarith [hk.2.2])]
        exact hF.stage
      obtain ⟨hi1, hi2⟩ := hF.hi hxlt
      -- the step
      have hfwd : l1.brackt = false ∧ x < x1 ∧ (restore w).stmin ≤ x1 := by
        unfold stepCall at hsc
        simp only at hsc
        have hM' := hM
        unfold Mod at hM'
        rw [if_neg hM'] at hsc
        simp only [Option.bind_eq_bind, Option.bind_eq_some_iff] at hsc
        obtain ⟨s, hs, he⟩ := hsc
        simp only [Option.some.injEq, Prod.mk.injEq] at he
        obtain ⟨rfl, rfl⟩ := he
        exact dcstep_forward (s := ⟨(restore w).stx, (restore w).fx, (restore w).gx, (restore w).sty, (restore w).fy, (restore w).gy, x,
          (restore w).brackt⟩) hslope hah hgs q3 hF.br hi1 hi2 hs
      obtain ⟨b1, b2, b3⟩ := hfwd
      obtain ⟨G1, G2⟩ := finish_free (P := P) (x := x1) b1
      rw [← hw'] at G1
      rw [← hx', h0, max_eq_left (by linarith : (0 : ℝ) ≤ x1)] at G2
      have hgx : l1.gx = (φ x).2 := e3
      have hfx : l1.fx = (φ x).1 := by
        rcases s7 with ⟨a, b, c⟩ | ⟨a, b, c, d⟩
        · exfalso
          rw [e1] at a
          have a : x = (restore w).stx := a
          linarith
        · exact b
      have hxx : x < x' := by rw [G2]; exact lt_min b2 hxlt
      refine ⟨⟨hI', ?_, ?_, ?_, ?_, ?_, ?_, ?_, ?_⟩, hxlt, ?_, ?_⟩
      · rw [G1]; exact b1
      · rw [G1]; exact s4.trans hstage
      · rw [G1]; simp only; rw [hgx]; exact hgs
      · rw [G1]; simp only; rw [hfx, e1]; exact hval
      · rw [G1]; simp only; rw [e1]; linarith
      · rw [G1]; simp only; rw [e1]; exact hxx
      · rw [G2]; exact min_le_right _ _
      · intro hlt
        have hx1 : x' = x1 := by
          rw [G2] at hlt ⊢
          rcases min_lt_iff.mp hlt with hh | hh
          · exact min_eq_left hh.le
          · exact absurd hh (lt_irrefl _)
        rw [G1]
        simp only
        rw [e1, hx1]
        constructor <;> linarith
      · rw [G1]; simp only; exact e1
      · intro hlt
        have hx1 : x' = x1 := by
          rw [G2] at hlt ⊢
          rcases min_lt_iff.mp hlt with hh | hh
          · exact min_eq_left hh.le
          · exact absurd hh (lt_irrefl _)
        rw [G1]
        simp only
        rw [e1, hx1]
        exact ⟨b3, rfl⟩

/-- Without a bracket the steps grow, so that the search ends or reaches the limit. -/
theorem free_ends {P : Par} {φ : ℝ → ℝ × ℝ} {f0 g0 : ℝ} (h0 : P.stpmin = 0) (hP : 0 ≤ P.stpmax) (hx : 0 < P.xtol) (hft : 0 ≤ P.ftol)
    (hgt : 0 ≤ P.gtol) (hφ : φ 0 = (f0, g0)) (hg0 : g0 < 0) (hD : Descends P φ f0 g0)
    (hend : f0 + P.stpmax * (P.ftol * g0) < (φ P.stpmax).1) {w : Saved} {x : ℝ} (hF : Free P φ f0 g0 (restore w) x) :
    Ends P φ x w := by
  have main : ∀ d > (0 : ℝ), ∀ k : ℕ, ∀ w x, Free P φ f0 g0 (restore w) x → (x < P.stpmax → x + d ≤ (restore w).stmin) →
      P.stpmax ≤ x + k * d → Ends P φ x w := by
    intro d hd k
    induction k with
    | zero =>
      intro w x hF hs hk
      apply ends_of_step
      rintro _ x1 w1 h1 rfl
      rcases free_step h0 hP hgt hg0 hend hF h1 with hb | ⟨-, hlt, -⟩
      · exact br_ends h0 hP hx hft hφ hg0 hD hb
      · simp only [Nat.cast_zero, zero_mul, add_zero] at hk
        linarith
    | succ k ih =>
      intro w x hF hs hk
      apply ends_of_step
      rintro _ x1 w1 h1 rfl
      rcases free_step h0 hP hgt hg0 hend hF h1 with hb | ⟨hF1, hlt, hst, hmin⟩
      · exact br_ends h0 hP hx hft hφ hg0 hD hb
      · refine ih w1 x1 hF1 ?_ ?_
        · intro hl
          obtain ⟨m1, m2⟩ := hmin hl
          have := hs hlt
          rw [m2]
          linarith
        · rcases hF1.le.lt_or_eq with hl | hl
          · obtain ⟨m1, m2⟩ := hmin hl
            have := hs hlt
            push_cast at hk
            linarith
          · have : 0 ≤ (k : ℝ) * d := by positivity
            linarith
  apply ends_of_step
  rintro _ x1 w1 h1 rfl
  rcases free_step h0 hP hgt hg0 hend hF h1 with hb | ⟨hF1, hlt, hst, hmin⟩
  · exact br_ends h0 hP hx hft hφ hg0 hD hb
  · have hd : 0 < x1 - x := by
      have := hF1.ahead
      rw [hst] at this
      linarith
    obtain ⟨k, hk⟩ := exists_nat_ge ((P.stpmax - x1) / (x1 - x))
    rw [div_le_iff₀ hd] at hk
    refine main (x1 - x) hd k w1 x1 hF1 ?_ (by linarith)
    intro hl
    rw [(hmin hl).2]
    linarith

end Mpb.Linmin

import Verif.Phase.Model
import Mathlib.Analysis.Complex.Trigonometric

/-! # Property C60: phase consistency -/

namespace Mpb.Phase

/-! ### Specification -/

/-- Overlap of the `i`-th old band with band number `b` (from 1), with metric `L`. -/
noncomputable def Spec.overlap (n : ℕ) (L : (ℕ → ℂ) → (ℕ → ℂ)) (m : ℕ) (old : ℕ → ℂ) (p : ℕ) (H : ℕ → ℂ) (i b : ℕ) : ℂ :=
  ∑ r ∈ Finset.range n, (starRingEnd ℂ) (old (r * m + i)) * L (fun r => H (r * p + (b - 1))) r

/-- `H'` is `H` with band `b` (from 1) multiplied by `s` (on the `n` rows), every other entry unchanged. -/
def Spec.ScaledBand (n p : ℕ) (b : ℕ) (s : ℂ) (H H' : ℕ → ℂ) : Prop :=
  ∀ r c, c < p → H' (r * p + c) = if r < n ∧ c = b - 1 then s * H (r * p + c) else H (r * p + c)

/-! ### Lemmas -/

theorem scal_apply (s : ℂ) (off inc : ℕ) (hinc : 0 < inc) (n : ℕ) (mem : ℕ → ℂ) (j : ℕ) :
    scal s off inc n mem j = if ∃ i < n, j = off + i * inc then s * mem j else mem j := by
  induction n with
  | zero => simp [scal]
  | succ n ih =>
    have hne : ∀ i, i < n → off + n * inc ≠ off + i * inc := by
      intro i hi h
      have h : n * inc = i * inc := by omega
      have := Nat.eq_of_mul_eq_mul_right hinc h
      omega
    by_cases hj : j = off + n * inc
    · subst hj
      have e : ¬ ∃ i < n, off + n * inc = off + i * inc := by
        rintro ⟨i, hi, h⟩; exact hne i hi h
      have e' : ∃ i < n + 1, off + n * inc = off + i * inc := ⟨n, by omega, rfl⟩
      rw [if_neg e] at ih
      rw [if_pos e']
      simp only [scal, Function.update_self]
      rw [ih]
    · have : (∃ i < n + 1, j = off + i * inc) ↔ ∃ i < n, j = off + i * inc := by
        constructor
        · rintro ⟨i, hi, h⟩
          refine ⟨i, ?_, h⟩
          rcases Nat.lt_succ_iff_lt_or_eq.1 hi with h' | rfl
          · exact h'
          · exact absurd h hj
        · rintro ⟨i, hi, h⟩; exact ⟨i, by omega, h⟩
      rw [scal]
      rw [Function.update_of_ne hj, ih]
      simp only [this]

theorem index_inj {p r c i b : ℕ} (hc : c < p) (hb : b < p) (h : r * p + c = b + i * p) : r = i ∧ c = b := by
  have hp : 0 < p := by omega
  have h1 : (r * p + c) / p = r := by
    rw [Nat.add_comm, Nat.add_mul_div_right _ _ hp, Nat.div_eq_of_lt hc, Nat.zero_add]
  have h2 : (b + i * p) / p = i := by rw [Nat.add_mul_div_right _ _ hp, Nat.div_eq_of_lt hb, Nat.zero_add]
  have : r = i := by rw [← h1, ← h2, h]
  subst this
  omega

theorem scal_band {n p : ℕ} {b : ℕ} (h1 : 1 ≤ b) (h2 : b ≤ p) (s : ℂ) (H : ℕ → ℂ) :
    Spec.ScaledBand n p b s H (scal s (b - 1) p n H) := by
  intro r c hc
  rw [scal_apply _ _ _ (by omega)]
  have : (∃ i < n, r * p + c = b - 1 + i * p) ↔ (r < n ∧ c = b - 1) := by
    constructor
    · rintro ⟨i, hi, h⟩
      obtain ⟨rfl, rfl⟩ := index_inj hc (by omega) h
      exact ⟨hi, rfl⟩
    · rintro ⟨hr, rfl⟩; exact ⟨r, hr, by ring⟩
  simp only [this]

theorem phaseOf_mul (d : ℂ) : phaseOf d * d = (‖d‖ : ℂ) := by
  have h := Complex.norm_mul_exp_arg_mul_I d
  have e : (starRingEnd ℂ) (Complex.exp (Complex.arg d * Complex.I)) * Complex.exp (Complex.arg d * Complex.I) = 1 := by
    rw [← Complex.exp_conj, ← Complex.exp_add]
    simp
  unfold phaseOf
  linear_combination (-(starRingEnd ℂ) (Complex.exp (Complex.arg d * Complex.I))) * h + (‖d‖ : ℂ) * e

theorem phaseOf_norm (d : ℂ) : ‖phaseOf d‖ = 1 := by
  unfold phaseOf
  rw [RCLike.norm_conj, Complex.norm_exp_ofReal_mul_I]

theorem scaleAll_spec {n p first : ℕ} (hf : 1 ≤ first) (ph : ℕ → ℂ) (H : ℕ → ℂ) : ∀ cnt, first - 1 + cnt ≤ p →
    ∃ H', scaleAll n p first ph cnt H = some H' ∧
      ∀ r c, c < p → H' (r * p + c) =
        if r < n ∧ first - 1 ≤ c ∧ c < first - 1 + cnt then ph (c - (first - 1)) * H (r * p + c) else H (r * p + c) := by
  intro cnt
  induction cnt with
  | zero =>
    intro _
    refine ⟨H, rfl, fun r c _ => ?_⟩
    rw [if_neg]; omega
  | succ cnt ih =>
    intro h
    obtain ⟨H1, e1, h1⟩ := ih (by omega)
    have hb : (0 : ℤ) < ((first + cnt : ℕ) : ℤ) ∧ ((first + cnt : ℕ) : ℤ) ≤ p := by omega
    refine ⟨scal (ph cnt) (first + cnt - 1) p n H1, ?_, ?_⟩
    · simp only [scaleAll, e1, scaleEigenvector, if_pos hb, Int.toNat_natCast]
    · intro r c hc
      rw [scal_band (by omega : 1 ≤ first + cnt) (by omega) _ _ r c hc, h1 r c hc]
      by_cases hr : r < n
      · rcases Nat.lt_trichotomy c (first - 1 + cnt) with hlt | heq | hgt
        · have a1 : ¬ (r < n ∧ c = first + cnt - 1) := by omega
          rw [if_neg a1]
          by_cases hfc : first - 1 ≤ c
          · rw [if_pos ⟨hr, hfc, hlt⟩, if_pos ⟨hr, hfc, by omega⟩]
          · rw [if_neg (by omega), if_neg (by omega)]
        · have a1 : r < n ∧ c = first + cnt - 1 := ⟨hr, by omega⟩
          rw [if_pos a1, if_neg (by omega), if_pos ⟨hr, by omega, by omega⟩]
          have : c - (first - 1) = cnt := by omega
          rw [this]
        · rw [if_neg (by omega), if_neg (by omega), if_neg (by omega)]
      · rw [if_neg (by omega), if_neg (by omega), if_neg (by omega)]

/-! ### Theorems -/

/-- C60 (scale-eigenvector, complex build).  A valid band number scales exactly that band and nothing else; an invalid one
is rejected. -/
theorem C60_scale_eigenvector (n p : ℕ) (H : ℕ → ℂ) (b : ℤ) (s : ℂ) :
    (∀ H', scaleEigenvector n p H b s = some H' → Spec.ScaledBand n p b.toNat s H H') ∧
    (scaleEigenvector n p H b s = none ↔ b < 1 ∨ p < b) := by
  unfold scaleEigenvector
  split_ifs with h
  · refine ⟨fun H' hH => ?_, by simp; omega⟩
    simp only [Option.some.injEq] at hH
    subst hH
    exact scal_band (by omega) (by omega) _ _
  · exact ⟨fun H' hH => by simp at hH, by simp; omega⟩

/-- C60 (fix-phase-consistency).  For all old and new bands (any number, any starting band that fits) and every metric
`L` that is homogeneous (the identity, or the magnetic one): each band `first + i` is multiplied by a number of modulus
one, all other bands are unchanged, and the overlap of the `i`-th old band with the new band `first + i` is then real and
non-negative: it is the modulus of the overlap before. -/
theorem C60_phase_consistency (n p m first : ℕ) (L : (ℕ → ℂ) → (ℕ → ℂ)) (old H : ℕ → ℂ)
    (hL : ∀ (s : ℂ) (x : ℕ → ℂ), ∀ r < n, L (fun j => s * x j) r = s * L x r)
    (hrow : ∀ x y : ℕ → ℂ, (∀ r < n, x r = y r) → ∀ r < n, L x r = L y r)
    (hf : 1 ≤ first) (hfit : first - 1 + m ≤ p) :
    ∃ (H' : ℕ → ℂ) (ph : ℕ → ℂ), fixPhase n L m old p H first = some H' ∧ (∀ i < m, ‖ph i‖ = 1) ∧
      (∀ r < n, ∀ i < m, H' (r * p + (first - 1 + i)) = ph i * H (r * p + (first - 1 + i))) ∧
      (∀ r < n, ∀ c < p, (c < first - 1 ∨ first - 1 + m ≤ c) → H' (r * p + c) = H (r * p + c)) ∧
      (∀ i < m, Spec.overlap n L m old p H' i (first + i) = (‖Spec.overlap n L m old p H i (first + i)‖ : ℂ)) := by
  obtain ⟨H', e, h⟩ := scaleAll_spec (n := n) hf (fun i => phaseOf (dotEntry n L m old p H first i i)) H m hfit
  have hband : ∀ r < n, ∀ i < m, H' (r * p + (first - 1 + i)) =
      phaseOf (dotEntry n L m old p H first i i) * H (r * p + (first - 1 + i)) := by
    intro r hr i hi
    rw [h r _ (by omega), if_pos ⟨hr, by omega, by omega⟩, Nat.add_sub_cancel_left]
  refine ⟨H', fun i => phaseOf (dotEntry n L m old p H first i i), ?_, fun i _ => phaseOf_norm _, hband, ?_, ?_⟩
  · simp only [fixPhase, if_pos hfit, e]
  · intro r hr c hc hout
    rw [h r c hc, if_neg]; omega
  · intro i hi
    have hd : Spec.overlap n L m old p H i (first + i) = dotEntry n L m old p H first i i := by
      unfold Spec.overlap dotEntry col
      have : first + i - 1 = first - 1 + i := by omega
      rw [this]
    rw [hd, ← phaseOf_mul]
    unfold Spec.overlap
    have h1 : first + i - 1 = first - 1 + i := by omega
    rw [h1]
    conv_rhs => rw [dotEntry]; rw [Finset.mul_sum]
    refine Finset.sum_congr rfl fun r hr => ?_
    have hr : r < n := Finset.mem_range.1 hr
    rw [hrow _ (fun r => phaseOf (dotEntry n L m old p H first i i) * col p H (first - 1 + i) r)
      (fun r hr => by rw [hband r hr i hi]; rfl) r hr, hL _ _ r hr]
    unfold dotEntry
    ring

/-- C60 (full statement for the real-scalar build, refuted).  `scale-eigenvector` in `mpbi` does not reject all factors it
cannot represent: the purely imaginary factor `i` is accepted and sets the band to zero. -/
theorem C60_real_build_refuted : ∃ (n p : ℕ) (H H' : ℕ → ℂ) (b : ℤ) (s : ℂ), ‖s‖ = 1 ∧ s.im ≠ 0 ∧
    scaleEigenvectorReal n p H b s = some H' ∧ H 0 ≠ 0 ∧ H' 0 = 0 := by
  refine ⟨1, 1, fun _ => 1, scal 0 0 1 1 (fun _ => 1), 1, Complex.I, by simp, by simp, ?_, one_ne_zero, ?_⟩
  · simp [scaleEigenvectorReal]; norm_num
  · simp [scal]

/-- C60 (real-scalar build, the part that holds).  A real factor is accepted and scales exactly that band; a factor whose
real and imaginary parts are both of size at least `1e-7` is rejected. -/
theorem C60_real_build_partial (n p : ℕ) (H : ℕ → ℂ) (b : ℤ) (hb : 1 ≤ b) (hp : b ≤ p) (s : ℂ) :
    (s.im = 0 → ∃ H', scaleEigenvectorReal n p H b s = some H' ∧ Spec.ScaledBand n p b.toNat s H H') ∧
    (1e-7 ≤ |s.re| → 1e-7 ≤ |s.im| → scaleEigenvectorReal n p H b s = none) := by
  have hb' : 0 < b ∧ b ≤ p := ⟨by omega, hp⟩
  constructor
  · intro h0
    refine ⟨scal (s.re : ℂ) (b.toNat - 1) p n H, ?_, ?_⟩
    · unfold scaleEigenvectorReal
      rw [if_pos hb', if_pos]
      rw [h0]; norm_num
    · have hs : (s.re : ℂ) = s := by apply Complex.ext <;> simp [h0]
      rw [hs]
      exact scal_band (by omega) (by omega) _ _
  · intro h1 h2
    unfold scaleEigenvectorReal
    rw [if_pos hb', if_neg]
    rw [abs_mul, not_lt]
    calc (1e-14 : ℝ) = 1e-7 * 1e-7 := by norm_num
      _ ≤ |s.im| * |s.re| := mul_le_mul h2 h1 (by norm_num) (abs_nonneg _)

/-! ### Non-vacuity -/

/-- The hypotheses on the metric hold for the identity, and a 2-row, 3-band matrix with two old bands from band 2 fits. -/
example : ∃ H', fixPhase 2 id 2 (fun j => Complex.I ^ j) 3 (fun j => (j : ℂ)) 2 = some H' := by
  obtain ⟨H', -, h, -⟩ := C60_phase_consistency 2 3 2 2 id (fun j => Complex.I ^ j) (fun j => (j : ℂ))
    (fun _ _ _ _ => rfl) (fun _ _ h r hr => h r hr) (by norm_num) (by norm_num)
  exact ⟨H', h⟩

end Mpb.Phase

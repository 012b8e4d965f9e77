import Verif.Moment.Planar
import Mathlib.RingTheory.RootsOfUnity.Complex
import Mathlib.Data.Nat.Choose.Sum

/-!
# C88: exactness of the mesh in two dimensions
-/

namespace Mpb.Moment
open Mpb.Tensor Mpb.Tensor.Spec Complex

/-- Mean of `exp(i k θ)` over the twelve angles. -/
theorem mean_exp (k : ℤ) (h : |k| ≤ 11) : ∑ j ∈ Finset.range 12, Complex.exp (k * (2 * j * Real.pi / 12 : ℝ) * I) = if k = 0 then 12 else 0 := by
  split_ifs with hk
  · subst hk
    simp
  · have hz : (Complex.exp (2 * Real.pi * I / 12)) ^ 12 = 1 := by
      rw [← Complex.exp_nat_mul, show ((12 : ℕ) : ℂ) * (2 * Real.pi * I / 12) = 2 * Real.pi * I by push_cast; ring, Complex.exp_two_pi_mul_I]
    have hprim : IsPrimitiveRoot (Complex.exp (2 * Real.pi * I / 12)) 12 := by
      have := Complex.isPrimitiveRoot_exp 12 (by norm_num)
      exact_mod_cast this
    set w := Complex.exp (k * (2 * Real.pi * I / 12)) with hw
    have hw1 : w ≠ 1 := by
      rw [hw, Complex.exp_int_mul]
      intro h1
      have := (hprim.zpow_eq_one_iff_dvd k).mp h1
      have h2 := Int.le_of_dvd (abs_pos.mpr hk) ((dvd_abs _ _).mpr this)
      push_cast at h2
      omega
    have hw12 : w ^ 12 = 1 := by
      rw [hw, ← Complex.exp_nat_mul, show ((12 : ℕ) : ℂ) * (k * (2 * Real.pi * I / 12)) = k * (2 * Real.pi * I) by push_cast; ring,
        Complex.exp_int_mul_two_pi_mul_I]
    have hterm : ∀ j : ℕ, Complex.exp (k * (2 * j * Real.pi / 12 : ℝ) * I) = w ^ j := by
      intro j
      rw [hw, ← Complex.exp_nat_mul]
      congr 1
      push_cast
      ring
    simp only [hterm]
    have := mul_neg_geom_sum w 12
    rw [hw12, sub_self] at this
    exact (mul_eq_zero.mp this).resolve_left (sub_ne_zero.mpr (Ne.symm hw1))

theorem int_exp (k : ℤ) : ∫ t in (0 : ℝ)..2 * Real.pi, Complex.exp (k * t * I) = if k = 0 then (2 * Real.pi : ℝ) else 0 := by
  split_ifs with hk
  · subst hk
    simp
  · have hc : (k : ℂ) * I ≠ 0 := mul_ne_zero (by exact_mod_cast hk) I_ne_zero
    have h := integral_exp_mul_complex (a := 0) (b := 2 * Real.pi) hc
    have e : (fun t : ℝ => Complex.exp (k * t * I)) = fun t : ℝ => Complex.exp (k * I * t) := by
      funext t
      congr 1
      ring
    rw [e, h, show (k : ℂ) * I * ((2 * Real.pi : ℝ) : ℂ) = k * (2 * Real.pi * I) by push_cast; ring, Complex.exp_int_mul_two_pi_mul_I]
    simp

/-- The linear form along the circle, expanded. -/
theorem form_pow (a b : ℝ) (d : ℕ) (t : ℝ) :
    (((a * Real.cos t + b * Real.sin t) ^ d : ℝ) : ℂ) =
      ∑ m ∈ Finset.range (d + 1), (((a : ℂ) - b * I) / 2) ^ m * (((a : ℂ) + b * I) / 2) ^ (d - m) * (d.choose m) * Complex.exp (((2 * m - d : ℤ) : ℂ) * t * I) := by
  have h : ((a * Real.cos t + b * Real.sin t : ℝ) : ℂ) = ((a : ℂ) - b * I) / 2 * Complex.exp (t * I) + ((a : ℂ) + b * I) / 2 * Complex.exp (-t * I) := by
    rw [show (-(t : ℂ)) * I = ((-t : ℝ) : ℂ) * I by push_cast; ring, Complex.exp_mul_I, Complex.exp_mul_I]
    push_cast
    rw [Complex.cos_neg, Complex.sin_neg]
    linear_combination ((b : ℂ) * Complex.sin t) * I_sq
  rw [Complex.ofReal_pow, h, add_pow]
  refine Finset.sum_congr rfl fun m hm => ?_
  rw [Finset.mem_range] at hm
  rw [mul_pow, mul_pow, ← Complex.exp_nat_mul, ← Complex.exp_nat_mul]
  have e : Complex.exp (((2 * m - d : ℤ) : ℂ) * t * I) = Complex.exp (m * (t * I)) * Complex.exp (((d - m : ℕ) : ℂ) * (-t * I)) := by
    rw [← Complex.exp_add]
    congr 1
    have : ((d - m : ℕ) : ℂ) = (d : ℂ) - m := by rw [Nat.cast_sub (by omega)]
    rw [this]
    push_cast
    ring
  rw [e]
  ring

/-- C88, exactness in two dimensions: the weighted sum of the `d`-th power of any linear form over the table of directions is its mean over the
circle, for every `d ≤ 11`. -/
theorem C88_exact_plane (fl : ℝ → ℝ) (a : V3 ℝ) (d : ℕ) (hd : d ≤ 11) :
    ∃ tbl, sphereQuad fl 2 = some tbl ∧
      (tbl.map fun e => e.2 * (a.dot e.1) ^ d).sum = 1 / (2 * Real.pi) * ∫ t in (0 : ℝ)..2 * Real.pi, (a.dot ⟨Real.cos t, Real.sin t, 0⟩) ^ d := by
  refine ⟨sorted fl circle, rfl, ?_⟩
  rw [((sorted_perm fl _).map _).sum_eq, circle_eq, List.map_map]
  have hl : ∀ f : ℕ → ℝ, ((List.range 12).map f).sum = ∑ j ∈ Finset.range 12, f j := by
    intro f
    rw [Finset.sum_range]
    simp [List.range_succ, Fin.sum_univ_succ]
  rw [hl]
  have hdot : ∀ t : ℝ, a.dot ⟨Real.cos t, Real.sin t, 0⟩ = a.x * Real.cos t + a.y * Real.sin t := by
    intro t
    simp [V3.dot]
  simp only [Function.comp_apply, onCircle, hdot]
  set c := fun m : ℕ => (((a.x : ℂ) - a.y * I) / 2) ^ m * (((a.x : ℂ) + a.y * I) / 2) ^ (d - m) * (d.choose m) with hc
  have hpi : (Real.pi : ℂ) ≠ 0 := by exact_mod_cast Real.pi_ne_zero
  have h1 : ((∑ j ∈ Finset.range 12, 1 / 12 * (a.x * Real.cos (2 * ((j : ℤ) : ℝ) * Real.pi / 12) + a.y * Real.sin (2 * ((j : ℤ) : ℝ) * Real.pi / 12)) ^ d : ℝ) : ℂ) =
      ∑ m ∈ Finset.range (d + 1), c m * (if (2 * m - d : ℤ) = 0 then 1 else 0) := by
    push_cast
    have e : ∀ j ∈ Finset.range 12, (1 / 12 : ℂ) * ((a.x : ℂ) * Complex.cos (2 * (j : ℂ) * Real.pi / 12) + a.y * Complex.sin (2 * (j : ℂ) * Real.pi / 12)) ^ d =
        ∑ m ∈ Finset.range (d + 1), 1 / 12 * (c m * Complex.exp (((2 * m - d : ℤ) : ℂ) * ((2 * j * Real.pi / 12 : ℝ) : ℂ) * I)) := by
      intro j _
      rw [← Finset.mul_sum]
      have := form_pow a.x a.y d (2 * j * Real.pi / 12)
      push_cast at this ⊢
      rw [this]
    rw [Finset.sum_congr rfl e, Finset.sum_comm]
    refine Finset.sum_congr rfl fun m hm => ?_
    rw [Finset.mem_range] at hm
    rw [← Finset.mul_sum, ← Finset.mul_sum, mean_exp _ (by rw [abs_le]; omega)]
    split_ifs <;> ring
  have h2 : ((1 / (2 * Real.pi) * ∫ t in (0 : ℝ)..2 * Real.pi, (a.x * Real.cos t + a.y * Real.sin t) ^ d : ℝ) : ℂ) =
      ∑ m ∈ Finset.range (d + 1), c m * (if (2 * m - d : ℤ) = 0 then 1 else 0) := by
    rw [Complex.ofReal_mul, ← intervalIntegral.integral_ofReal]
    simp only [form_pow]
    rw [intervalIntegral.integral_finsetSum]
    · rw [Finset.mul_sum]
      refine Finset.sum_congr rfl fun m _ => ?_
      rw [intervalIntegral.integral_const_mul, int_exp]
      split_ifs
      · push_cast
        field_simp
        rw [hc]
      · simp
    · intro m _
      apply Continuous.intervalIntegrable
      fun_prop
  exact_mod_cast h1.trans h2.symm

end Mpb.Moment

import Verif.Invariance.Lemmas
import Verif.Maxwell.OperatorProps
import Verif.Target.Precond
import Verif.Transform.Props

/-! # The transforms of the model are inverse and adjoint to each other -/

namespace Mpb.Invariance
open Mpb.Maxwell Mpb.Maxwell.Spec

/-- The `j`-th power of the root of unity `exp(2πi/n)`. -/
noncomputable def chi (n : ℕ) (j : ℤ) : ℂ := Complex.exp (((2 * Real.pi * (j / n) : ℝ) : ℂ) * Complex.I)

theorem chi_zero (n : ℕ) : chi n 0 = 1 := by simp [chi]

theorem chi_add (n : ℕ) (i j : ℤ) : chi n (i + j) = chi n i * chi n j := by
  unfold chi
  rw [← Complex.exp_add]
  congr 1
  push_cast
  ring

theorem chi_ne_zero (n : ℕ) (j : ℤ) : chi n j ≠ 0 := Complex.exp_ne_zero _

theorem chi_mul_self {n : ℕ} (hn : 0 < n) (j : ℤ) : chi n (n * j) = 1 := by
  unfold chi
  have h : ((2 * Real.pi * (((n * j : ℤ) : ℝ) / n) : ℝ) : ℂ) * Complex.I = (j : ℂ) * (2 * Real.pi * Complex.I) := by
    have : ((n : ℤ) : ℝ) ≠ 0 := by exact_mod_cast hn.ne'
    have h2 : ((n * j : ℤ) : ℝ) / n = j := by push_cast; field_simp
    rw [h2]; push_cast; ring
  rw [h]
  exact Complex.exp_int_mul_two_pi_mul_I j

theorem chi_congr {n : ℕ} (hn : 0 < n) {i j : ℤ} (h : (n : ℤ) ∣ i - j) : chi n i = chi n j := by
  obtain ⟨c, hc⟩ := h
  rw [show i = j + n * c by omega, chi_add, chi_mul_self hn, mul_one]

theorem chi_eq_one {n : ℕ} (hn : 0 < n) {j : ℤ} (h : chi n j = 1) : (n : ℤ) ∣ j := by
  unfold chi at h
  rw [Complex.exp_eq_one_iff] at h
  obtain ⟨c, hc⟩ := h
  have h1 : ((2 * Real.pi * (j / n) : ℝ) : ℂ) = ((c * (2 * Real.pi) : ℝ) : ℂ) := by
    have := mul_right_cancel₀ Complex.I_ne_zero (hc.trans (by push_cast; ring : (c : ℂ) * (2 * Real.pi * Complex.I) = ((c * (2 * Real.pi) : ℝ) : ℂ) * Complex.I))
    exact this
  have h2 : 2 * Real.pi * ((j : ℝ) / n) = c * (2 * Real.pi) := by exact_mod_cast h1
  have hn' : (n : ℝ) ≠ 0 := by exact_mod_cast hn.ne'
  have h3 : (j : ℝ) = n * c := by
    have := Real.pi_ne_zero
    field_simp at h2
    linarith
  exact ⟨c, by exact_mod_cast h3⟩

theorem chi_conj (n : ℕ) (j : ℤ) : (starRingEnd ℂ) (chi n j) = chi n (-j) := by
  unfold chi
  rw [← Complex.exp_conj]
  congr 1
  rw [map_mul, Complex.conj_ofReal, Complex.conj_I]
  push_cast
  ring

theorem chi_normSq (n : ℕ) (j : ℤ) : chi n j * (starRingEnd ℂ) (chi n j) = 1 := by
  rw [chi_conj, ← chi_add, add_neg_cancel, chi_zero]

theorem chi_pow (n : ℕ) (j : ℤ) (r : ℕ) : chi n (r * j) = chi n j ^ r := by
  induction r with
  | zero => simp [chi_zero]
  | succ r ih => rw [pow_succ, ← ih, ← chi_add]; congr 1; push_cast; ring

theorem chi_sum {n : ℕ} (hn : 0 < n) (j : ℤ) : ∑ r ∈ Finset.range n, chi n (r * j) = if (n : ℤ) ∣ j then (n : ℂ) else 0 := by
  split_ifs with h
  · have : ∀ r ∈ Finset.range n, chi n (r * j) = 1 := by
      intro r _
      rw [← chi_zero n]
      exact chi_congr hn (by simpa using h.mul_left _)
    rw [Finset.sum_congr rfl this]
    simp
  · have h1 : chi n j ≠ 1 := fun hc => h (chi_eq_one hn hc)
    simp only [chi_pow]
    have := mul_neg_geom_sum (chi n j) n
    rw [← chi_pow, chi_mul_self hn, sub_self] at this
    rcases mul_eq_zero.mp this with h2 | h2
    · exact absurd (sub_eq_zero.mp h2).symm h1
    · exact h2

/-- The transform matrix in terms of the three coordinates. -/
theorem dft_pos (nx ny nz a b : ℕ) : dft 1 nx ny nz a b = chi nx ((a / nz / ny : ℕ) * (b / nz / ny : ℕ)) *
    chi ny ((a / nz % ny : ℕ) * (b / nz % ny : ℕ)) * chi nz ((a % nz : ℕ) * (b % nz : ℕ)) := by
  unfold dft
  generalize a / nz / ny = a1
  generalize a / nz % ny = a2
  generalize a % nz = a3
  generalize b / nz / ny = b1
  generalize b / nz % ny = b2
  generalize b % nz = b3
  unfold chi
  rw [← Complex.exp_add, ← Complex.exp_add]
  congr 1
  push_cast
  ring

theorem dft_neg (nx ny nz a b : ℕ) : dft (-1) nx ny nz a b = chi nx (-((a / nz / ny : ℕ) * (b / nz / ny : ℕ))) *
    chi ny (-((a / nz % ny : ℕ) * (b / nz % ny : ℕ))) * chi nz (-((a % nz : ℕ) * (b % nz : ℕ))) := by
  unfold dft
  generalize a / nz / ny = a1
  generalize a / nz % ny = a2
  generalize a % nz = a3
  generalize b / nz / ny = b1
  generalize b / nz % ny = b2
  generalize b % nz = b3
  unfold chi
  rw [← Complex.exp_add, ← Complex.exp_add]
  congr 1
  push_cast
  ring

theorem dft_conj (nx ny nz a b : ℕ) : dft 1 nx ny nz a b = (starRingEnd ℂ) (dft (-1) nx ny nz b a) := by
  rw [dft_pos, dft_neg, map_mul, map_mul, chi_conj, chi_conj, chi_conj]
  simp only [neg_neg, mul_comm ((a / nz / ny : ℕ) : ℤ), mul_comm ((a / nz % ny : ℕ) : ℤ), mul_comm ((a % nz : ℕ) : ℤ)]

theorem split_x {ny nz y z : ℕ} (x : ℕ) (hy : y < ny) (hz : z < nz) : ((x * ny + y) * nz + z) / nz / ny = x := by
  rw [Nat.add_comm, Nat.mul_comm, Nat.add_mul_div_left _ _ (by omega), Nat.div_eq_of_lt hz, zero_add, Nat.add_comm, Nat.mul_comm,
    Nat.add_mul_div_left _ _ (by omega), Nat.div_eq_of_lt hy, zero_add]

theorem split_y {ny nz y z : ℕ} (x : ℕ) (hy : y < ny) (hz : z < nz) : ((x * ny + y) * nz + z) / nz % ny = y := by
  rw [Nat.add_comm, Nat.mul_comm, Nat.add_mul_div_left _ _ (by omega), Nat.div_eq_of_lt hz, zero_add, Nat.mul_add_mod', Nat.mod_eq_of_lt hy]

theorem split_z {nz z : ℕ} (i : ℕ) (hz : z < nz) : (i * nz + z) % nz = z := by
  rw [Nat.mul_add_mod', Nat.mod_eq_of_lt hz]

/-- The product of three root sums. -/
theorem dft_orth {nx ny nz : ℕ} {a b : ℕ} (ha : a < nx * ny * nz) (hb : b < nx * ny * nz) :
    ∑ r ∈ Finset.range (nx * ny * nz), dft 1 nx ny nz a r * dft (-1) nx ny nz r b = if a = b then ((nx * ny * nz : ℕ) : ℂ) else 0 := by
  obtain ⟨x, hx, y, hy, z, hz, rfl⟩ := index3 ha
  obtain ⟨x', hx', y', hy', z', hz', rfl⟩ := index3 hb
  rw [← Transform.sum_flat, ← Transform.sum_flat]
  have h : ∀ i ∈ Finset.range nx, ∀ j ∈ Finset.range ny, ∀ k ∈ Finset.range nz,
      dft 1 nx ny nz ((x * ny + y) * nz + z) ((i * ny + j) * nz + k) * dft (-1) nx ny nz ((i * ny + j) * nz + k) ((x' * ny + y') * nz + z') =
      chi nx (i * ((x : ℤ) - x')) * (chi ny (j * ((y : ℤ) - y')) * chi nz (k * ((z : ℤ) - z'))) := by
    intro i hi j hj k hk
    rw [Finset.mem_range] at hi hj hk
    rw [dft_pos, dft_neg]
    simp only [split_x _ hy hz, split_x _ hy' hz', split_x _ hj hk, split_y _ hy hz, split_y _ hy' hz', split_y _ hj hk, split_z _ hz, split_z _ hz', split_z _ hk]
    rw [show (i : ℤ) * ((x : ℤ) - x') = x * i + -(i * x') by ring, show (j : ℤ) * ((y : ℤ) - y') = y * j + -(j * y') by ring,
      show (k : ℤ) * ((z : ℤ) - z') = z * k + -(k * z') by ring, chi_add, chi_add, chi_add]
    ring
  rw [Finset.sum_congr rfl fun i hi => Finset.sum_congr rfl fun j hj => Finset.sum_congr rfl fun k hk => h i hi j hj k hk]
  simp only [← Finset.mul_sum, ← Finset.sum_mul, chi_sum (show 0 < nx by omega), chi_sum (show 0 < ny by omega), chi_sum (show 0 < nz by omega)]
  have hd : ∀ {n p q : ℕ}, p < n → q < n → ((n : ℤ) ∣ (p : ℤ) - q ↔ p = q) := by
    intro n p q hp hq
    constructor
    · intro h
      have := Int.eq_zero_of_abs_lt_dvd h (by rw [abs_lt]; omega)
      omega
    · rintro rfl; simp
  simp only [hd hx hx', hd hy hy', hd hz hz']
  by_cases h1 : x = x' <;> by_cases h2 : y = y' <;> by_cases h3 : z = z'
  · subst h1 h2 h3
    simp [mul_assoc]
  all_goals
    have hne : ¬ ((x * ny + y) * nz + z = (x' * ny + y') * nz + z') := by
      intro he
      have e1 := congrArg (fun t => t / nz / ny) he
      have e2 := congrArg (fun t => t / nz % ny) he
      have e3 := congrArg (fun t => t % nz) he
      simp only [split_x _ hy hz, split_x _ hy' hz', split_y _ hy hz, split_y _ hy' hz', split_z _ hz, split_z _ hz'] at e1 e2 e3
      tauto
    rw [if_neg hne]
    simp only [h1, h2, h3, if_true, if_false, mul_zero, zero_mul]

theorem data_adjoint (P : Problem) : AdjointTransforms P.data := fun G _ r _ => dft_conj _ _ _ _ _

theorem data_inverse (P : Problem) : Target.Spec.InverseTransforms P.data := fun _ hG _ hG' => dft_orth hG hG'

end Mpb.Invariance

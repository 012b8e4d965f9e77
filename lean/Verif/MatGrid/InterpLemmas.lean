import Verif.Core.Interp
import Verif.MatGrid.InterpModel
import Mathlib.Tactic.Positivity
import Mathlib.Tactic.FieldSimp

/-! # Lemmas on the interpolation -/

namespace Mpb.MatGrid
open Mpb.Spec

/-- Specification: the integer `i` reflected into `0, …, n-1`, the mirrors being at `-1/2` and `n - 1/2`. -/
def Spec.mirrorIdx (n : ℕ) (i : ℤ) : ℤ := if i % (2 * n) < n then i % (2 * n) else 2 * n - 1 - i % (2 * n)

open Spec

theorem truncZ_neg {a : ℝ} (h : a < 0) : truncZ a = ⌈a⌉ := by
  unfold truncZ; rw [if_neg (not_le.2 h)]

theorem truncZ_nonneg {a : ℝ} (h : 0 ≤ a) : truncZ a = ⌊a⌋ := by
  unfold truncZ; rw [if_pos h]

theorem mirrorIdx_id {n : ℕ} {i : ℤ} (h0 : 0 ≤ i) (h1 : i < n) : mirrorIdx n i = i := by
  unfold mirrorIdx
  rw [Int.emod_eq_of_lt h0 (by omega), if_pos h1]

theorem mirrorIdx_range {n : ℕ} (hn : 0 < n) (i : ℤ) : 0 ≤ mirrorIdx n i ∧ mirrorIdx n i < n := by
  unfold mirrorIdx
  have h0 := Int.emod_nonneg i (b := 2 * n) (by omega)
  have h1 := Int.emod_lt_of_pos i (b := 2 * n) (by omega)
  split_ifs <;> omega

theorem mirrorIdx_end {n : ℕ} (hn : 0 < n) : mirrorIdx n n = n - 1 := by
  unfold mirrorIdx
  rw [Int.emod_eq_of_lt (by omega) (by omega), if_neg (by omega)]
  omega

theorem mirrorIdx_symm {n : ℕ} (hn : 0 < n) (i : ℤ) : mirrorIdx n (-1 - i) = mirrorIdx n i := by
  have h0 := Int.emod_nonneg i (b := 2 * n) (by omega)
  have h1 := Int.emod_lt_of_pos i (b := 2 * n) (by omega)
  have e : (-1 - i) % (2 * (n : ℤ)) = 2 * n - 1 - i % (2 * n) := by
    have : -1 - i = (2 * n - 1 - i % (2 * n)) + (2 * n) * (-(i / (2 * n)) - 1) := by
      have := Int.mul_ediv_add_emod i (2 * n)
      linarith
    rw [this, Int.add_mul_emod_self_left, Int.emod_eq_of_lt (by omega) (by omega)]
  unfold mirrorIdx
  rw [e]
  split_ifs <;> omega

theorem lin_reflect (g : ℤ → ℝ) (c : ℤ) (u : ℝ) : lin g (c - u) = lin (fun i => g (c - i)) u := by
  unfold lin
  by_cases h : Int.fract u = 0
  · have hu : u = (⌊u⌋ : ℝ) := by have := Int.floor_add_fract u; rw [h] at this; linarith
    have e : (c : ℝ) - u = ((c - ⌊u⌋ : ℤ) : ℝ) := by push_cast; linarith
    have hf : Int.fract ((c : ℝ) - u) = 0 := by rw [e]; exact Int.fract_intCast _
    have hfl : ⌊(c : ℝ) - u⌋ = c - ⌊u⌋ := by rw [e]; exact Int.floor_intCast _
    rw [hf, hfl, h]
    simp
  · have h0 := Int.fract_nonneg u
    have h1 := Int.fract_lt_one u
    have hpos : 0 < Int.fract u := lt_of_le_of_ne h0 (Ne.symm h)
    have hu := Int.floor_add_fract u
    have hfl : ⌊(c : ℝ) - u⌋ = c - ⌊u⌋ - 1 := by
      rw [Int.floor_eq_iff]
      push_cast
      constructor <;> linarith
    have hf : Int.fract ((c : ℝ) - u) = 1 - Int.fract u := by
      have := Int.floor_add_fract ((c : ℝ) - u)
      rw [hfl] at this
      push_cast at this
      linarith
    rw [hf, hfl]
    have e1 : c - ⌊u⌋ - 1 + 1 = c - ⌊u⌋ := by ring
    have e2 : c - (⌊u⌋ + 1) = c - ⌊u⌋ - 1 := by ring
    simp only [e1, e2, smul_eq_mul]
    ring

/-- What one coordinate of the code computes, for an already mirrored coordinate. -/
theorem axis_nonneg {n : ℕ} (hn : 0 < n) {r : ℝ} (h0 : 0 ≤ r) (h1 : r ≤ 1) :
    let x := cell r n
    let dx := r * n - x - 0.5
    0 ≤ x ∧ x < n ∧ 0 ≤ other dx x n ∧ other dx x n < n ∧ |dx| ≤ 1 / 2 ∧
      ∀ g : ℤ → ℝ, (1 - |dx|) * g x + |dx| * g (other dx x n) = lin (fun i => g (mirrorIdx n i)) (n * r - 1 / 2) := by
  have hnR : (0 : ℝ) < n := by exact_mod_cast hn
  have hy0 : 0 ≤ r * n := by positivity
  have hy1 : r * n ≤ n := by nlinarith
  intro x dx
  have hfl0 : 0 ≤ ⌊r * n⌋ := Int.floor_nonneg.2 hy0
  have hfl1 : ⌊r * n⌋ ≤ n := by
    have := Int.floor_le (r * n)
    exact_mod_cast this.trans hy1
  have hx : x = if ⌊r * n⌋ = (n : ℤ) then (n : ℤ) - 1 else ⌊r * n⌋ := by
    simp only [x, cell, truncZ, if_pos hy0]
    split_ifs with h
    · rw [h]
    · rfl
  have hx0 : 0 ≤ x := by rw [hx]; split_ifs <;> omega
  have hx1 : x < n := by rw [hx]; split_ifs <;> omega
  have hd : -(1 / 2) ≤ dx ∧ dx ≤ 1 / 2 := by
    have a := Int.floor_le (r * n)
    have b := Int.lt_floor_add_one (r * n)
    have e : dx = r * n - (x : ℝ) - 1 / 2 := by simp only [dx]; norm_num
    rw [e, hx]
    split_ifs with h
    · rw [h] at a
      push_cast at *
      constructor <;> linarith
    · constructor <;> linarith
  have habs : |dx| ≤ 1 / 2 := abs_le.2 hd
  have hu : (n : ℝ) * r - 1 / 2 = x + dx := by simp only [dx]; push_cast; ring
  rcases le_or_gt 0 dx with hp | hp
  · have ho : other dx x n = if x + 1 = n then x else x + 1 := by
      unfold other
      simp only [ge_iff_le, if_pos hp]
      rw [if_neg (by omega)]
      split_ifs <;> omega
    refine ⟨hx0, hx1, by rw [ho]; split_ifs <;> omega, by rw [ho]; split_ifs <;> omega, habs, fun g => ?_⟩
    have hfl : ⌊(n : ℝ) * r - 1 / 2⌋ = x := by rw [hu, Int.floor_eq_iff]; constructor <;> linarith [hd.2]
    have hfr : Int.fract ((n : ℝ) * r - 1 / 2) = dx := by
      have := Int.floor_add_fract ((n : ℝ) * r - 1 / 2)
      rw [hfl] at this
      linarith
    unfold lin
    beta_reduce
    rw [hfl, hfr, abs_of_nonneg hp, mirrorIdx_id hx0 hx1, ho]
    split_ifs with h
    · rw [h, mirrorIdx_end hn, smul_eq_mul, smul_eq_mul, ← h, add_sub_cancel_right]
    · rw [mirrorIdx_id (by omega) (by omega), smul_eq_mul, smul_eq_mul]
  · have ho : other dx x n = if x = 0 then 0 else x - 1 := by
      unfold other
      simp only [ge_iff_le, if_neg (not_le.2 hp)]
      split_ifs <;> omega
    refine ⟨hx0, hx1, by rw [ho]; split_ifs <;> omega, by rw [ho]; split_ifs <;> omega, habs, fun g => ?_⟩
    have hfl : ⌊(n : ℝ) * r - 1 / 2⌋ = x - 1 := by
      rw [hu, Int.floor_eq_iff]; push_cast; constructor <;> linarith [hd.1]
    have hfr : Int.fract ((n : ℝ) * r - 1 / 2) = dx + 1 := by
      have := Int.floor_add_fract ((n : ℝ) * r - 1 / 2)
      rw [hfl] at this
      push_cast at this
      linarith
    unfold lin
    beta_reduce
    rw [hfl, hfr, abs_of_neg hp, sub_add_cancel, mirrorIdx_id hx0 hx1, ho]
    have hm : mirrorIdx n (x - 1) = if x = 0 then 0 else x - 1 := by
      split_ifs with h
      · have := mirrorIdx_symm hn 0
        rw [h]
        simpa using this.trans (mirrorIdx_id (by omega) (by omega))
      · exact mirrorIdx_id (by omega) (by omega)
    rw [hm, smul_eq_mul, smul_eq_mul]
    ring

/-- One coordinate, for `-1 ≤ r ≤ 1`. -/
theorem axis_spec {n : ℕ} (hn : 0 < n) {r : ℝ} (h0 : -1 ≤ r) (h1 : r ≤ 1) :
    0 ≤ (axis r n).x ∧ (axis r n).x < n ∧ 0 ≤ (axis r n).x2 ∧ (axis r n).x2 < n ∧ 0 ≤ (axis r n).d ∧ (axis r n).d ≤ 1 / 2 ∧
      ∀ g : ℤ → ℝ, (1 - (axis r n).d) * g (axis r n).x + (axis r n).d * g (axis r n).x2 =
        lin (fun i => g (mirrorIdx n i)) (n * r - 1 / 2) := by
  rcases lt_or_ge r 0 with h | h
  · have hm : mirror r = -r := by unfold mirror; rw [if_pos h]
    obtain ⟨a, b, c, d, e, f⟩ := axis_nonneg hn (r := -r) (by linarith) (by linarith)
    unfold axis
    simp only [hm]
    refine ⟨a, b, c, d, abs_nonneg _, e, fun g => ?_⟩
    rw [f g]
    have e1 : (n : ℝ) * -r - 1 / 2 = ((-1 : ℤ) : ℝ) - (n * r - 1 / 2) := by push_cast; ring
    rw [e1, lin_reflect]
    simp only [mirrorIdx_symm hn]
  · have hm : mirror r = r := by unfold mirror; rw [if_neg (by linarith), if_neg (by linarith)]
    obtain ⟨a, b, c, d, e, f⟩ := axis_nonneg hn h h1
    unfold axis
    simp only [hm]
    exact ⟨a, b, c, d, abs_nonneg _, e, f⟩

theorem flat_range {nx ny nz stride : ℕ} (hs : 0 < stride) {x y z : ℤ} (hx : 0 ≤ x ∧ x < nx) (hy : 0 ≤ y ∧ y < ny) (hz : 0 ≤ z ∧ z < nz) :
    0 ≤ flat ny nz stride x y z ∧ flat ny nz stride x y z < (nx * ny * nz * stride : ℕ) := by
  have hny : (0 : ℤ) < ny := by omega
  have hnz : (0 : ℤ) < nz := by omega
  have hs' : (0 : ℤ) < stride := by omega
  have h1 : 0 ≤ x * ny + y := by nlinarith [mul_nonneg hx.1 hny.le]
  have h2 : x * ny + y ≤ nx * ny - 1 := by nlinarith [mul_le_mul_of_nonneg_right (show x ≤ nx - 1 by omega) hny.le]
  have h3 : 0 ≤ (x * ny + y) * nz + z := by nlinarith [mul_nonneg h1 hnz.le]
  have h4 : (x * ny + y) * nz + z ≤ nx * ny * nz - 1 := by nlinarith [mul_le_mul_of_nonneg_right h2 hnz.le]
  unfold flat
  push_cast
  constructor
  · exact mul_nonneg h3 hs'.le
  · nlinarith [mul_le_mul_of_nonneg_right h4 hs'.le]

/-- The value the code reads at the grid point `(x, y, z)`. -/
def Spec.sample (data : Arr) (ny nz stride : ℕ) (x y z : ℤ) : ℝ := data.get (flat ny nz stride x y z).toNat

theorem read_sample {data : Arr} {nx ny nz stride : ℕ} (hs : 0 < stride) (hl : nx * ny * nz * stride ≤ data.len) {x y z : ℤ}
    (hx : 0 ≤ x ∧ x < nx) (hy : 0 ≤ y ∧ y < ny) (hz : 0 ≤ z ∧ z < nz) :
    data.read (flat ny nz stride x y z) = some (sample data ny nz stride x y z) := by
  obtain ⟨a, b⟩ := flat_range hs hx hy hz
  unfold Arr.read sample
  rw [if_pos ⟨a, by omega⟩]

/-- `combine`, when all eight points are in the array. -/
theorem combine_eq {data : Arr} {nx ny nz stride : ℕ} (hs : 0 < stride) (hl : nx * ny * nz * stride ≤ data.len) {X Y Z : Axis}
    (hx : 0 ≤ X.x ∧ X.x < nx) (hx2 : 0 ≤ X.x2 ∧ X.x2 < nx) (hy : 0 ≤ Y.x ∧ Y.x < ny) (hy2 : 0 ≤ Y.x2 ∧ Y.x2 < ny)
    (hz : 0 ≤ Z.x ∧ Z.x < nz) (hz2 : 0 ≤ Z.x2 ∧ Z.x2 < nz) :
    combine data ny nz stride X Y Z = some (
      (1 - X.d) * ((1 - Y.d) * ((1 - Z.d) * sample data ny nz stride X.x Y.x Z.x + Z.d * sample data ny nz stride X.x Y.x Z.x2) +
        Y.d * ((1 - Z.d) * sample data ny nz stride X.x Y.x2 Z.x + Z.d * sample data ny nz stride X.x Y.x2 Z.x2)) +
      X.d * ((1 - Y.d) * ((1 - Z.d) * sample data ny nz stride X.x2 Y.x Z.x + Z.d * sample data ny nz stride X.x2 Y.x Z.x2) +
        Y.d * ((1 - Z.d) * sample data ny nz stride X.x2 Y.x2 Z.x + Z.d * sample data ny nz stride X.x2 Y.x2 Z.x2))) := by
  unfold combine
  simp only [read_sample hs hl hx hy hz, read_sample hs hl hx2 hy hz, read_sample hs hl hx hy2 hz, read_sample hs hl hx2 hy2 hz,
    read_sample hs hl hx hy hz2, read_sample hs hl hx2 hy hz2, read_sample hs hl hx hy2 hz2, read_sample hs hl hx2 hy2 hz2,
    Option.bind_eq_bind, Option.bind_some, Option.pure_def, Option.some.injEq]
  ring

end Mpb.MatGrid

import Verif.Moment.Lemmas
import Mathlib.Tactic.IntervalCases

/-!
# The 50-point formula is exact for even powers up to the tenth
-/

namespace Mpb.Moment
open Mpb.Tensor

/-- The squared radius of the integer vectors of a group. -/
def norm2 (g : ℕ) : ℕ := if g = 1 then 1 else if g = 2 then 2 else if g = 3 then 3 else 11

theorem scale_sq (g : ℕ) : scale g ^ 2 = 1 / (norm2 g : ℝ) := by
  unfold scale norm2
  split_ifs
  · norm_num
  · rw [Real.sq_sqrt (by norm_num)]; norm_num
  · rw [Real.sq_sqrt (by norm_num)]; norm_num
  · rw [Real.sq_sqrt (by norm_num)]; norm_num

theorem interp_pow (a : V3 ℝ) (c : V3 ℤ × ℕ) (e : ℕ) :
    (interp c).2 * (a.dot (interp c).1) ^ (2 * e) = weight c.2 * (1 / (norm2 c.2 : ℝ)) ^ e * (a.x * c.1.x + a.y * c.1.y + a.z * c.1.z) ^ (2 * e) := by
  have h : a.dot (interp c).1 = (a.x * c.1.x + a.y * c.1.y + a.z * c.1.z) * scale c.2 := by
    simp only [V3.dot, interp]; ring
  rw [h, mul_pow, pow_mul (scale c.2), scale_sq]
  simp only [interp]
  ring

set_option maxHeartbeats 2000000 in
set_option maxRecDepth 4000 in
theorem even_power (a : V3 ℝ) (e : ℕ) (he : e ≤ 5) :
    ((codes.map interp).map fun p => p.2 * (a.dot p.1) ^ (2 * e)).sum = (a.dot a) ^ e / (2 * e + 1) := by
  rw [List.map_map]
  have h : (codes.map ((fun p : Entry => p.2 * (a.dot p.1) ^ (2 * e)) ∘ interp)) =
      codes.map fun c => weight c.2 * (1 / (norm2 c.2 : ℝ)) ^ e * (a.x * c.1.x + a.y * c.1.y + a.z * c.1.z) ^ (2 * e) :=
    List.map_congr_left fun c _ => interp_pow a c e
  rw [h]
  simp only [codes, codes1, codes2, codes3, codes4, List.map_append, List.map_cons, List.map_nil, List.sum_append, List.sum_cons, List.sum_nil,
    weight, norm2, V3.dot]
  norm_num
  obtain ⟨x, y, z⟩ := a
  dsimp only
  interval_cases e <;> norm_num <;> ring

end Mpb.Moment

import Verif.Maxwell.Spec

namespace Mpb.Maxwell
open Spec

theorem normalize_spec {v : V3 ℝ} (h : v.x * v.x + v.y * v.y + v.z * v.z ≠ 0) :
    ∃ l : ℝ, 0 < l ∧ l ^ 2 = v.x * v.x + v.y * v.y + v.z * v.z ∧
      (normalize v).x * l = v.x ∧ (normalize v).y * l = v.y ∧ (normalize v).z * l = v.z := by
  set s := v.x * v.x + v.y * v.y + v.z * v.z with hs
  have hpos : 0 < s := lt_of_le_of_ne (by rw [hs]; nlinarith [mul_self_nonneg v.x, mul_self_nonneg v.y, mul_self_nonneg v.z]) (Ne.symm h)
  have hl : 0 < Real.sqrt s := Real.sqrt_pos.2 hpos
  refine ⟨Real.sqrt s, hl, Real.sq_sqrt hpos.le, ?_, ?_, ?_⟩ <;>
  · simp only [normalize]
    rw [← hs]
    field_simp

theorem unit_of_scaled {a : V3 ℝ} {v : V3 ℝ} {l : ℝ} (hl : 0 < l) (hl2 : l ^ 2 = v.x * v.x + v.y * v.y + v.z * v.z)
    (hx : a.x * l = v.x) (hy : a.y * l = v.y) (hz : a.z * l = v.z) : a.x * a.x + a.y * a.y + a.z * a.z = 1 := by
  have h : (a.x * a.x + a.y * a.y + a.z * a.z - 1) * l ^ 2 = 0 := by
    rw [← hx, ← hy, ← hz] at hl2
    linear_combination (-1 : ℝ) * hl2
  rcases mul_eq_zero.1 h with h | h
  · linarith
  · exact absurd h (by positivity)

theorem kData_isBasis (K : V3 ℝ) : IsBasis K (kData K) := by
  classical
  by_cases ha : K.x * K.x + K.y * K.y + K.z * K.z = 0
  · have hx : K.x = 0 := by nlinarith [mul_self_nonneg K.x, mul_self_nonneg K.y, mul_self_nonneg K.z]
    have hy : K.y = 0 := by nlinarith [mul_self_nonneg K.x, mul_self_nonneg K.y, mul_self_nonneg K.z]
    have hz : K.z = 0 := by nlinarith [mul_self_nonneg K.x, mul_self_nonneg K.y, mul_self_nonneg K.z]
    have e : kData K = ⟨0, ⟨0, 0, 1⟩, ⟨0, 1, 0⟩⟩ := by
      simp only [kData]
      rw [if_pos ha, ha, Real.sqrt_zero]
    rw [e]
    refine ⟨le_rfl, ?_, ?_, ?_, ?_, ?_, ?_, ?_⟩ <;> simp [hx, hy, hz]
    ext <;> simp [hx, hy, hz]
  · set a := K.x * K.x + K.y * K.y + K.z * K.z with hadef
    have hpos : 0 < a := lt_of_le_of_ne (by rw [hadef]; nlinarith [mul_self_nonneg K.x, mul_self_nonneg K.y, mul_self_nonneg K.z]) (Ne.symm ha)
    -- the n vector: unit and transverse to K
    obtain ⟨n, hn, hnn, hnK⟩ : ∃ n : V3 ℝ, (if K.x = 0 ∧ K.y = 0 then (⟨0, 1, 0⟩ : V3 ℝ) else normalize (V3.cross ⟨0, 0, 1⟩ K)) = n ∧
        n.x * n.x + n.y * n.y + n.z * n.z = 1 ∧ n.x * K.x + n.y * K.y + n.z * K.z = 0 := by
      by_cases hxy : K.x = 0 ∧ K.y = 0
      · exact ⟨⟨0, 1, 0⟩, if_pos hxy, by norm_num, by simp [hxy.2]⟩
      · refine ⟨_, if_neg hxy, ?_⟩
        have hne : (V3.cross ⟨0, 0, 1⟩ K).x * (V3.cross ⟨0, 0, 1⟩ K).x + (V3.cross ⟨0, 0, 1⟩ K).y * (V3.cross ⟨0, 0, 1⟩ K).y +
            (V3.cross ⟨0, 0, 1⟩ K).z * (V3.cross ⟨0, 0, 1⟩ K).z ≠ 0 := by
          simp only [V3.cross]
          intro h
          apply hxy
          constructor <;> nlinarith [mul_self_nonneg K.x, mul_self_nonneg K.y]
        obtain ⟨l, hl, hl2, hx, hy, hz⟩ := normalize_spec hne
        refine ⟨unit_of_scaled hl hl2 hx hy hz, ?_⟩
        have : ((normalize (V3.cross ⟨0, 0, 1⟩ K)).x * K.x + (normalize (V3.cross ⟨0, 0, 1⟩ K)).y * K.y +
            (normalize (V3.cross ⟨0, 0, 1⟩ K)).z * K.z) * l = 0 := by
          have e : (V3.cross ⟨0, 0, 1⟩ K).x * K.x + (V3.cross ⟨0, 0, 1⟩ K).y * K.y + (V3.cross ⟨0, 0, 1⟩ K).z * K.z = 0 := by
            simp only [V3.cross]; ring
          linear_combination e + K.x * hx + K.y * hy + K.z * hz
        exact (mul_eq_zero.1 this).resolve_right hl.ne'
    have hsq : Real.sqrt a ^ 2 = a := Real.sq_sqrt hpos.le
    have hsp : 0 < Real.sqrt a := Real.sqrt_pos.2 hpos
    have hcr : (V3.cross n K).x * (V3.cross n K).x + (V3.cross n K).y * (V3.cross n K).y + (V3.cross n K).z * (V3.cross n K).z = a := by
      have h1 : (V3.cross n K).x * (V3.cross n K).x + (V3.cross n K).y * (V3.cross n K).y + (V3.cross n K).z * (V3.cross n K).z =
          (n.x * n.x + n.y * n.y + n.z * n.z) * a - (n.x * K.x + n.y * K.y + n.z * K.z) ^ 2 := by
        rw [hadef]; simp only [V3.cross]; ring
      rw [h1, hnn, hnK]; ring
    obtain ⟨l, hl, hl2, hx, hy, hz⟩ := normalize_spec (v := V3.cross n K) (by rw [hcr]; exact ha)
    have hls : l = Real.sqrt a := by
      have : l ^ 2 = Real.sqrt a ^ 2 := by rw [hl2, hcr, hsq]
      nlinarith [mul_pos hl hsp]
    have e : kData K = ⟨Real.sqrt a, normalize (V3.cross n K), n⟩ := by
      simp only [kData]
      rw [if_neg ha, hn]
    rw [e]
    set m := normalize (V3.cross n K) with hm
    have hmm := unit_of_scaled hl hl2 hx hy hz
    simp only [V3.cross] at hx hy hz
    have hmn : m.x * n.x + m.y * n.y + m.z * n.z = 0 := by
      have : (m.x * n.x + m.y * n.y + m.z * n.z) * l = 0 := by
        linear_combination n.x * hx + n.y * hy + n.z * hz
      exact (mul_eq_zero.1 this).resolve_right hl.ne'
    have hmK : m.x * K.x + m.y * K.y + m.z * K.z = 0 := by
      have : (m.x * K.x + m.y * K.y + m.z * K.z) * l = 0 := by
        linear_combination K.x * hx + K.y * hy + K.z * hz
      exact (mul_eq_zero.1 this).resolve_right hl.ne'
    refine ⟨hsp.le, ?_, hmm, hnn, hmn, hmK, hnK, ?_⟩
    · rw [hsq, hadef]; ring
    · rw [← hls]
      ext <;> simp only [V3.smul, V3.cross]
      · linear_combination (-K.x) * hnn + n.x * hnK - n.z * hy + n.y * hz
      · linear_combination (-K.y) * hnn + n.y * hnK - n.x * hz + n.z * hx
      · linear_combination (-K.z) * hnn + n.z * hnK - n.y * hx + n.x * hy

/-- Index of the triple loop. -/
theorem updateK_get {nx ny nz x y z : ℕ} (hx : x < nx) (hy : y < ny) (hz : z < nz) (G1 G2 G3 k : V3 ℝ) :
    (updateK nx ny nz G1 G2 G3 k)[(x * ny + y) * nz + z]? =
      some (kData (kplusG G1 G2 G3 k (harm nx x) (harm ny y) (harm nz z))) := by
  rw [updateK, List.getElem?_map, getElem?_loop3 hx hy hz]
  rfl

theorem kplusG_eq (G1 G2 G3 k : V3 ℝ) (a b c : ℤ) : kplusG G1 G2 G3 k a b c = waveVec G1 G2 G3 k ⟨-a, -b, -c⟩ := by
  ext <;> simp [kplusG, cartK, waveVec] <;> ring

end Mpb.Maxwell

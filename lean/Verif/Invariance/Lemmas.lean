import Verif.Invariance.Model
import Verif.Invariance.Spec
import Verif.Maxwell.OperatorProps

/-! # Lemmas for the invariance properties -/

namespace Mpb.Invariance
open Mpb.Maxwell Mpb.Maxwell.Spec Spec

theorem band1 (X : ℕ → ℂ) (G : ℕ) : band 1 X 0 G = (X (G * 2), X (G * 2 + 1)) := by simp [band]

/-- A mode in terms of the single-band operators. -/
theorem isMode_iff (d : OpData) (hn : 0 < d.nfb) (lam : ℝ) (X : ℕ → ℂ) :
    IsMode d lam X ↔ (∃ G < d.N, band 1 X 0 G ≠ (0, 0)) ∧
      ∀ G < d.N, bandMaxwell d (band 1 X 0) G = ((lam : ℂ) * (bandMuinv d (band 1 X 0) G).1, (lam : ℂ) * (bandMuinv d (band 1 X 0) G).2) := by
  have h0 : (∃ a < d.N * 2, X a ≠ 0) ↔ ∃ G < d.N, band 1 X 0 G ≠ (0, 0) := by
    constructor
    · rintro ⟨a, ha, hX⟩
      refine ⟨a / 2, by omega, fun h => hX ?_⟩
      rw [band1] at h
      obtain ⟨h1, h2⟩ := Prod.mk.injEq .. ▸ h
      rcases Nat.mod_two_eq_zero_or_one a with h | h
      · have : a / 2 * 2 = a := by omega
        rw [this] at h1; exact h1
      · have : a / 2 * 2 + 1 = a := by omega
        rw [this] at h2; exact h2
    · rintro ⟨G, hG, hX⟩
      by_contra hc
      push Not at hc
      apply hX
      rw [band1, hc _ (by omega), hc _ (by omega)]
  unfold IsMode
  rw [h0]
  refine and_congr_right fun _ => ⟨fun h => ?_, fun h bufs bufs' Y Y' => ?_⟩
  · obtain ⟨R, B, e1, e2, e3⟩ := h (fun _ _ => 0) (fun _ _ => 0) (fun _ => 0) (fun _ => 0)
    obtain ⟨R', f1, g1, -⟩ := C04_bands d 1 hn (fun _ _ => 0) X (fun _ => 0)
    obtain ⟨B', f2, g2, -⟩ := C04_muinv_bands d 1 hn (fun _ _ => 0) X (fun _ => 0)
    obtain rfl : R = R' := Option.some.inj (e1.symm.trans f1)
    obtain rfl : B = B' := Option.some.inj (e2.symm.trans f2)
    intro G hG
    rw [← g1 0 (by omega) G hG, ← g2 0 (by omega) G hG, band1, band1, e3 _ (by omega), e3 _ (by omega)]
  · obtain ⟨R, f1, g1, -⟩ := C04_bands d 1 hn bufs X Y
    obtain ⟨B, f2, g2, -⟩ := C04_muinv_bands d 1 hn bufs' X Y'
    refine ⟨R, B, f1, f2, fun a ha => ?_⟩
    have := h (a / 2) (by omega)
    rw [← g1 0 (by omega) _ (by omega), ← g2 0 (by omega) _ (by omega), band1, band1] at this
    obtain ⟨h1, h2⟩ := Prod.mk.injEq .. ▸ this
    rcases Nat.mod_two_eq_zero_or_one a with hm | hm
    · have e : a / 2 * 2 = a := by omega
      rw [e] at h1; exact h1
    · have e : a / 2 * 2 + 1 = a := by omega
      rw [e] at h2; exact h2

/-- Without FFT bands there are no modes (the operator does not return). -/
theorem not_isMode (d : OpData) (hn : d.nfb = 0) (lam : ℝ) (X : ℕ → ℂ) : ¬ IsMode d lam X := by
  rintro ⟨-, h⟩
  obtain ⟨R, B, e1, -⟩ := h (fun _ _ => 0) (fun _ _ => 0) (fun _ => 0) (fun _ => 0)
  simp [maxwellOperator, hn] at e1

/-! ### Scaling -/

theorem latticeGm_scaled (s : ℝ) (hs : s ≠ 0) (R : M3 ℝ) :
    Velocity.latticeGm (scaled s R) = scaled (1 / s) (Velocity.latticeGm R) := by
  have hd : M3.det (scaled s R).transpose = s ^ 3 * M3.det R.transpose := by
    simp only [M3.det, scaled, M3.transpose, V3.smul]; ring
  unfold Velocity.latticeGm MpbData.inverse
  rw [hd]
  by_cases h0 : M3.det R.transpose = 0
  · rw [h0]
    simp [scaled, M3.transpose, V3.smul]
  · simp only [scaled, M3.transpose, V3.smul, V3.cross]
    congr 1 <;> congr 1 <;> field_simp

theorem sqrt_scaled {c : ℝ} (hc : 0 < c) (a : ℝ) : Real.sqrt (c * c * a) = c * Real.sqrt a := by
  rw [Real.sqrt_mul (by positivity), Real.sqrt_mul_self hc.le]

theorem normalize_scaled {c : ℝ} (hc : 0 < c) (v : V3 ℝ) : Maxwell.normalize (V3.smul c v) = Maxwell.normalize v := by
  unfold Maxwell.normalize
  have : (V3.smul c v).x * (V3.smul c v).x + (V3.smul c v).y * (V3.smul c v).y + (V3.smul c v).z * (V3.smul c v).z =
      c * c * (v.x * v.x + v.y * v.y + v.z * v.z) := by simp only [V3.smul]; ring
  rw [this, sqrt_scaled hc]
  by_cases h0 : Real.sqrt (v.x * v.x + v.y * v.y + v.z * v.z) = 0
  · simp [h0]
  · ext <;> simp only [V3.smul] <;> field_simp

theorem kData_scaled {c : ℝ} (hc : 0 < c) (K : V3 ℝ) :
    kData (V3.smul c K) = ⟨c * (kData K).kmag, (kData K).m, (kData K).n⟩ := by
  have e : (V3.smul c K).x * (V3.smul c K).x + (V3.smul c K).y * (V3.smul c K).y + (V3.smul c K).z * (V3.smul c K).z =
      c * c * (K.x * K.x + K.y * K.y + K.z * K.z) := by simp only [V3.smul]; ring
  unfold kData
  dsimp only
  rw [e, sqrt_scaled hc]
  by_cases h0 : K.x * K.x + K.y * K.y + K.z * K.z = 0
  · rw [h0, mul_zero, if_pos rfl, if_pos rfl]
  · rw [if_neg h0, if_neg (by positivity)]
    have h1 : ((V3.smul c K).x = 0 ∧ (V3.smul c K).y = 0) ↔ (K.x = 0 ∧ K.y = 0) := by simp [hc.ne']
    have h2 : V3.cross ⟨0, 0, 1⟩ (V3.smul c K) = V3.smul c (V3.cross ⟨0, 0, 1⟩ K) := by
      ext <;> simp only [V3.cross, V3.smul] <;> ring
    have h3 : ∀ n, V3.cross n (V3.smul c K) = V3.smul c (V3.cross n K) := fun n => by
      ext <;> simp only [V3.cross, V3.smul] <;> ring
    simp only [h1, h2, h3, normalize_scaled hc]

theorem waveVec_scaled (c : ℝ) (G : M3 ℝ) (k : V3 ℝ) (g : V3 ℤ) :
    waveVec (scaled c G).c0 (scaled c G).c1 (scaled c G).c2 k g = V3.smul c (waveVec G.c0 G.c1 G.c2 k g) := by
  ext <;> simp only [waveVec, scaled, V3.smul, V3.add_x, V3.add_y, V3.add_z] <;> ring

theorem index3 {nx ny nz G : ℕ} (h : G < nx * ny * nz) : ∃ x < nx, ∃ y < ny, ∃ z < nz, G = (x * ny + y) * nz + z := by
  obtain ⟨i, hi, z, hz, rfl⟩ := exists_od_ld h
  obtain ⟨x, hx, y, hy, rfl⟩ := exists_od_ld hi
  exact ⟨x, hx, y, hy, z, hz, rfl⟩

theorem kpgArr_scaled {nx ny nz : ℕ} {c : ℝ} (hc : 0 < c) (G : M3 ℝ) (k : V3 ℝ) {i : ℕ} (hi : i < nx * ny * nz) :
    kpgArr nx ny nz (scaled c G).c0 (scaled c G).c1 (scaled c G).c2 k i =
      ⟨c * (kpgArr nx ny nz G.c0 G.c1 G.c2 k i).kmag, (kpgArr nx ny nz G.c0 G.c1 G.c2 k i).m, (kpgArr nx ny nz G.c0 G.c1 G.c2 k i).n⟩ := by
  obtain ⟨x, hx, y, hy, z, hz, rfl⟩ := index3 hi
  rw [kpgArr_apply hx hy hz, kpgArr_apply hx hy hz, waveVec_scaled, kData_scaled hc]

theorem mulVec_times (t : ℝ) (e : HMat) (v : V3 ℂ) : (times t e).mulVec v = V3.smul (t : ℂ) (e.mulVec v) := by
  ext <;> apply Complex.ext <;> simp [HMat.mulVec, times] <;> ring

theorem mulVec_smul (e : HMat) (c : ℂ) (v : V3 ℂ) : e.mulVec (V3.smul c v) = V3.smul c (e.mulVec v) := by
  ext <;> apply Complex.ext <;> simp [HMat.mulVec] <;> ring

theorem transform_congr {W : ℕ → ℕ → ℂ} {N : ℕ} {a b : ℕ → V3 ℂ} (h : ∀ j < N, a j = b j) (r : ℕ) : transform W N a r = transform W N b r := by
  have : ∀ f : V3 ℂ → ℂ, ∑ j ∈ Finset.range N, W r j * f (a j) = ∑ j ∈ Finset.range N, W r j * f (b j) := fun f =>
    Finset.sum_congr rfl (fun j hj => by rw [h j (Finset.mem_range.1 hj)])
  ext
  · exact this V3.x
  · exact this V3.y
  · exact this V3.z

theorem transform_smul (W : ℕ → ℕ → ℂ) (N : ℕ) (c : ℂ) (a : ℕ → V3 ℂ) (r : ℕ) :
    transform W N (fun j => V3.smul c (a j)) r = V3.smul c (transform W N a r) := by
  ext <;> simp only [transform, V3.smul, Finset.mul_sum] <;> refine Finset.sum_congr rfl fun j _ => ?_ <;> ring

theorem smul_smul3 (a b : ℂ) (v : V3 ℂ) : V3.smul a (V3.smul b v) = V3.smul (a * b) v := by
  ext <;> simp only [V3.smul] <;> ring

end Mpb.Invariance

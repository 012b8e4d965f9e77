import Verif.Invariance.Slope
import Verif.Invariance.Reverse

/-! # C103: how far the frequencies at `-k` and at `k + G` can be from those at `k` -/

namespace Mpb.Invariance
open Mpb.Maxwell Mpb.Maxwell.Spec Spec MinMax
open scoped ComplexOrder

/-- A conjugate-linear correspondence of modes keeps the number of modes up to each frequency. -/
theorem mirror_count {P P' : Problem} (h : MirrorModes P.data P'.data) {lam : ℝ} {n : ℕ} (hm : ModesUpTo P.data lam n) :
    ModesUpTo P'.data lam n := by
  obtain ⟨hN, U, hU, hmode⟩ := h
  obtain ⟨X, hli, hX⟩ := hm
  refine ⟨fun i => U (X i), fun c hc => ?_, fun i => ?_⟩
  · have h0 : ∀ a < P.data.N * 2, ∑ i, (starRingEnd ℂ) (c i) * X i a = 0 := by
      set Y : ℕ → ℂ := ∑ i, (starRingEnd ℂ) (c i) • X i with hY
      have e : U Y = fun a => ∑ i, c i * U (X i) a := by
        rw [hY, map_sum]
        funext a
        rw [Finset.sum_apply]
        refine Finset.sum_congr rfl fun i _ => ?_
        rw [LinearEquiv.map_smulₛₗ, Complex.conj_conj, Pi.smul_apply, smul_eq_mul]
      have hz : ∑ a ∈ Finset.range (P.data.N * 2), Complex.normSq (Y a) = 0 := by
        rw [← hU Y]
        refine Finset.sum_eq_zero fun a ha => ?_
        rw [e]
        dsimp only
        rw [hc a (by rw [hN]; exact Finset.mem_range.1 ha), map_zero]
      intro a ha
      have := (Finset.sum_eq_zero_iff_of_nonneg fun a _ => Complex.normSq_nonneg _).1 hz a (Finset.mem_range.2 ha)
      have := Complex.normSq_eq_zero.1 this
      rw [hY, Finset.sum_apply] at this
      exact this
    intro i
    have := hli _ h0 i
    exact (map_eq_zero _).1 this
  · obtain ⟨mu, hle, hmo⟩ := hX i
    exact ⟨mu, hle, (hmode mu (X i)).1 hmo⟩

/-- C103, the deviation at `-k`: let the permittivity be nowhere below `a` and the permeability nowhere below `b`, and let `σ` be the
reciprocal-lattice vector with coordinates `skew` (0, 1 or 2 for a direction with one, an even number, an odd number of grid points).  If
there are `n` modes with frequencies up to `ω` at `k` there are `n` modes with frequencies up to `ω + |σ|/√(a b)` at `-k`, for the conjugate
tensors.  So the `n`-th frequencies at `k` and at `-k` differ by at most `|σ|/√(a b)`, for every grid. -/
theorem C103_deviation_partial {P P' : Problem} (hd : P.Rm.det ≠ 0) (h : Reversed ⟨-P.k.x, -P.k.y, -P.k.z⟩ P P') (σ : V3 ℝ)
    (hσ : V3.dot P.Rm.c0 σ = skew P.nx ∧ V3.dot P.Rm.c1 σ = skew P.ny ∧ V3.dot P.Rm.c2 σ = skew P.nz) {a b : ℝ} (ha : 0 < a) (hb : 0 < b)
    (hε : ∀ r < P.nx * P.ny * P.nz, Denser ⟨1 / a, 1 / a, 1 / a, 0, 0, 0⟩ (P.epsInv r))
    (hμ : ∀ r < P.nx * P.ny * P.nz, Denser ⟨1 / b, 1 / b, 1 / b, 0, 0, 0⟩ (invMu P r)) {ω : ℝ} (hω : 0 ≤ ω) (n : ℕ) (hm : ModesUpTo P.data (ω ^ 2) n) :
    ModesUpTo P'.data ((ω + Real.sqrt (V3.dot σ σ) / Real.sqrt (a * b)) ^ 2) n := by
  have h1 := C105_slope P hd ⟨P.k.x - skew P.nx, P.k.y - skew P.ny, P.k.z - skew P.nz⟩ ⟨-σ.x, -σ.y, -σ.z⟩
    ⟨by have := hσ.1; simp only [V3.dot] at *; linarith, by have := hσ.2.1; simp only [V3.dot] at *; linarith,
      by have := hσ.2.2; simp only [V3.dot] at *; linarith⟩ ha hb hε hμ hω n hm
  rw [show V3.dot (⟨-σ.x, -σ.y, -σ.z⟩ : V3 ℝ) ⟨-σ.x, -σ.y, -σ.z⟩ = V3.dot σ σ by simp only [V3.dot]; ring] at h1
  refine mirror_count (P := { P with k := ⟨P.k.x - skew P.nx, P.k.y - skew P.ny, P.k.z - skew P.nz⟩ }) (C103_reversal_partial ?_) h1
  refine ⟨h.nx, h.ny, h.nz, h.nfb, h.lattice, ?_, h.eps, h.mu⟩
  rw [h.k]
  ext <;> dsimp only <;> ring

/-- C103, the deviation at `k + G`: the `n`-th frequency at `k` plus a reciprocal-lattice vector `G` (integer coordinates `g`) is at most
`|G|/√(a b)` above the `n`-th one at `k`. -/
theorem C103_shift_partial (P : Problem) (hd : P.Rm.det ≠ 0) (g : V3 ℤ) (G : V3 ℝ)
    (hG : V3.dot P.Rm.c0 G = g.x ∧ V3.dot P.Rm.c1 G = g.y ∧ V3.dot P.Rm.c2 G = g.z) {a b : ℝ} (ha : 0 < a) (hb : 0 < b)
    (hε : ∀ r < P.nx * P.ny * P.nz, Denser ⟨1 / a, 1 / a, 1 / a, 0, 0, 0⟩ (P.epsInv r))
    (hμ : ∀ r < P.nx * P.ny * P.nz, Denser ⟨1 / b, 1 / b, 1 / b, 0, 0, 0⟩ (invMu P r)) {ω : ℝ} (hω : 0 ≤ ω) (n : ℕ) (hm : ModesUpTo P.data (ω ^ 2) n) :
    ModesUpTo ({ P with k := ⟨P.k.x + g.x, P.k.y + g.y, P.k.z + g.z⟩ } : Problem).data ((ω + Real.sqrt (V3.dot G G) / Real.sqrt (a * b)) ^ 2) n :=
  C105_slope P hd _ G ⟨by rw [hG.1]; dsimp only; ring, by rw [hG.2.1]; dsimp only; ring, by rw [hG.2.2]; dsimp only; ring⟩ ha hb hε hμ hω n hm

/-- Non-vacuity: four grid points of vacuum at `k = 1/4` and `k = -1/4`, with `σ = (1, 0, 0)`. -/
example : (vacuum 4 (1 / 4)).Rm.det ≠ 0 ∧ Reversed ⟨-(vacuum 4 (1 / 4)).k.x, -(vacuum 4 (1 / 4)).k.y, -(vacuum 4 (1 / 4)).k.z⟩ (vacuum 4 (1 / 4)) (vacuum 4 (-(1 / 4))) ∧
    V3.dot (vacuum 4 (1 / 4)).Rm.c0 ⟨1, 0, 0⟩ = skew 4 ∧ V3.dot (vacuum 4 (1 / 4)).Rm.c1 ⟨1, 0, 0⟩ = skew 1 ∧
    V3.dot (vacuum 4 (1 / 4)).Rm.c2 ⟨1, 0, 0⟩ = skew 1 ∧ Denser ⟨1 / 1, 1 / 1, 1 / 1, 0, 0, 0⟩ ((vacuum 4 (1 / 4)).epsInv 0) := by
  refine ⟨by simp [vacuum, M3.one, M3.det], ⟨rfl, rfl, rfl, rfl, rfl, ?_, fun r _ => ?_, Or.inl ⟨rfl, rfl⟩⟩, ?_, ?_, ?_, ?_⟩
  · simp [vacuum]
  · unfold Conjugate
    ext i j
    fin_cases i <;> fin_cases j <;> simp [Tensor.Spec.toMatrix, vacuum]
  · simp [vacuum, M3.one, V3.dot, skew]
  · simp [vacuum, M3.one, V3.dot, skew]
  · simp [vacuum, M3.one, V3.dot, skew]
  · have e : Tensor.Spec.toMatrix ⟨1, 1, 1, 0, 0, 0⟩ = 1 := by
      ext i j
      fin_cases i <;> fin_cases j <;> simp [Tensor.Spec.toMatrix]
    refine ⟨⟨1, 1, 1, 0, 0, 0⟩, ⟨1, 1, 1, 0, 0, 0⟩, ?_, ?_, ?_, fun _ => le_rfl⟩
    · norm_num [e]
    · show Tensor.Spec.toMatrix ⟨1, 1, 1, 0, 0, 0⟩ * Tensor.Spec.toMatrix ⟨1, 1, 1, 0, 0, 0⟩ = 1
      rw [e, one_mul]
    · refine (posDef_iff _).2 ?_
      rw [e]
      exact Matrix.PosDef.one

end Mpb.Invariance

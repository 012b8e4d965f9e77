import Verif.Invariance.Dft

/-! # Planewaves are modes of a homogeneous medium (used for examples) -/

namespace Mpb.Invariance
open Mpb.Maxwell Mpb.Maxwell.Spec Spec

/-- The vector `k + G` at a place of the grid, as the operator sees it. -/
noncomputable def Problem.wave (P : Problem) (x y z : ℕ) : V3 ℝ :=
  let Gm := Velocity.latticeGm P.Rm
  waveVec Gm.c0 Gm.c1 Gm.c2 P.k ⟨-harm P.nx x, -harm P.ny y, -harm P.nz z⟩

theorem data_kpg (P : Problem) {x y z : ℕ} (hx : x < P.nx) (hy : y < P.ny) (hz : z < P.nz) :
    P.data.kpg ((x * P.ny + y) * P.nz + z) = kData (P.wave x y z) := kpgArr_apply hx hy hz _ _ _ _

theorem data_isBasis (P : Problem) : ∃ K : ℕ → V3 ℝ, (∀ G < P.data.N, IsBasis (K G) (P.data.kpg G)) ∧
    ∀ x < P.nx, ∀ y < P.ny, ∀ z < P.nz, K ((x * P.ny + y) * P.nz + z) = P.wave x y z := by
  refine ⟨fun G => P.wave (G / P.nz / P.ny) (G / P.nz % P.ny) (G % P.nz), fun G hG => ?_, fun x hx y hy z hz => ?_⟩
  · obtain ⟨x, hx, y, hy, z, hz, rfl⟩ := index3 (nx := P.nx) (ny := P.ny) (nz := P.nz) hG
    dsimp only
    rw [data_kpg P hx hy hz, split_x _ hy hz, split_y _ hy hz, split_z _ hz]
    exact kData_isBasis _
  · dsimp only
    rw [split_x _ hy hz, split_y _ hy hz, split_z _ hz]

theorem homogeneous_mode (P : Problem) (hn : 0 < P.nfb) (hmu : P.muInv = none) {e : ℝ} (he : ∀ r, P.epsInv r = ⟨e, e, e, 0, 0, 0⟩)
    {x y z : ℕ} (hx : x < P.nx) (hy : y < P.ny) (hz : z < P.nz) :
    IsMode P.data (e * V3.dot (P.wave x y z) (P.wave x y z)) (fun a => if a = ((x * P.ny + y) * P.nz + z) * 2 then 1 else 0) := by
  obtain ⟨K, hK, hw⟩ := data_isBasis P
  have hG : (x * P.ny + y) * P.nz + z < P.data.N := rowMajor_lt (rowMajor_lt hx hy) hz
  rw [isMode_iff _ hn]
  refine ⟨⟨_, hG, ?_⟩, fun G' hG' => ?_⟩
  · rw [band1]; simp
  · rw [Target.homogeneous_maxwell (data_inverse P) hmu (fun r _ => he r) hK _ hG']
    unfold bandMuinv
    rw [show P.data.muInv = none from hmu]
    dsimp only
    rw [band1]
    by_cases h : G' = (x * P.ny + y) * P.nz + z
    · subst h
      rw [hw x hx y hy z hz]
    · have h2 : ¬ (G' * 2 = ((x * P.ny + y) * P.nz + z) * 2) := by omega
      have h3 : ¬ (G' * 2 + 1 = ((x * P.ny + y) * P.nz + z) * 2) := by omega
      simp [h2, h3]

end Mpb.Invariance

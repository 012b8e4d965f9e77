import Verif.Velocity.Spec

/-! # Properties C46, C67, C69: group velocities -/

namespace Mpb.Velocity
open Mpb.Maxwell Mpb.Maxwell.Spec Mpb.Velocity.Spec Filter Topology

/-! ### C46: directions -/

theorem reciprocal_of_inverse (Rm : M3 ℝ) (h : M3.det Rm ≠ 0) : IsReciprocal Rm (latticeGm Rm) := by
  have hT : M3.det Rm.transpose = M3.det Rm := by simp only [M3.det, M3.transpose]; ring
  have e : M3.det Rm.transpose * (1 / M3.det Rm.transpose) = 1 := by rw [hT]; field_simp
  unfold IsReciprocal latticeGm MpbData.inverse
  generalize 1 / M3.det Rm.transpose = q at e
  simp only [M3.det, M3.transpose] at e
  refine ⟨?_, ?_, ?_, ?_, ?_, ?_, ?_, ?_, ?_⟩ <;>
    simp only [M3.transpose, V3.dot, V3.cross, V3.smul] <;> first | linear_combination e | ring

theorem mulVec_reciprocal {Rm Gm : M3 ℝ} (h : IsReciprocal Rm Gm) (hd : M3.det Rm ≠ 0) (w : V3 ℝ) : Gm.mulVec (Rm.transpose.mulVec w) = w := by
  obtain ⟨h1, h2, h3, h4, h5, h6, h7, h8, h9⟩ := h
  simp only [V3.dot] at *
  -- the rows of Rm annihilate the difference
  have k : ∀ a b c : ℝ, Rm.c0.x * a + Rm.c0.y * b + Rm.c0.z * c = 0 → Rm.c1.x * a + Rm.c1.y * b + Rm.c1.z * c = 0 →
      Rm.c2.x * a + Rm.c2.y * b + Rm.c2.z * c = 0 → a = 0 ∧ b = 0 ∧ c = 0 := by
    intro a b c e1 e2 e3
    refine ⟨?_, ?_, ?_⟩ <;> refine (mul_eq_zero.1 ?_).resolve_left hd <;> simp only [M3.det]
    · linear_combination (Rm.c1.y * Rm.c2.z - Rm.c1.z * Rm.c2.y) * e1 - (Rm.c0.y * Rm.c2.z - Rm.c0.z * Rm.c2.y) * e2 +
        (Rm.c0.y * Rm.c1.z - Rm.c0.z * Rm.c1.y) * e3
    · linear_combination -(Rm.c1.x * Rm.c2.z - Rm.c1.z * Rm.c2.x) * e1 + (Rm.c0.x * Rm.c2.z - Rm.c0.z * Rm.c2.x) * e2 -
        (Rm.c0.x * Rm.c1.z - Rm.c0.z * Rm.c1.x) * e3
    · linear_combination (Rm.c1.x * Rm.c2.y - Rm.c1.y * Rm.c2.x) * e1 - (Rm.c0.x * Rm.c2.y - Rm.c0.y * Rm.c2.x) * e2 +
        (Rm.c0.x * Rm.c1.y - Rm.c0.y * Rm.c1.x) * e3
  obtain ⟨a, b, c⟩ := k ((Gm.mulVec (Rm.transpose.mulVec w)).x - w.x) ((Gm.mulVec (Rm.transpose.mulVec w)).y - w.y)
    ((Gm.mulVec (Rm.transpose.mulVec w)).z - w.z)
    (by
      simp only [M3.mulVec, M3.transpose]
      linear_combination (Rm.c0.x * w.x + Rm.c0.y * w.y + Rm.c0.z * w.z) * h1 +
        (Rm.c1.x * w.x + Rm.c1.y * w.y + Rm.c1.z * w.z) * h2 + (Rm.c2.x * w.x + Rm.c2.y * w.y + Rm.c2.z * w.z) * h3)
    (by
      simp only [M3.mulVec, M3.transpose]
      linear_combination (Rm.c0.x * w.x + Rm.c0.y * w.y + Rm.c0.z * w.z) * h4 +
        (Rm.c1.x * w.x + Rm.c1.y * w.y + Rm.c1.z * w.z) * h5 + (Rm.c2.x * w.x + Rm.c2.y * w.y + Rm.c2.z * w.z) * h6)
    (by
      simp only [M3.mulVec, M3.transpose]
      linear_combination (Rm.c0.x * w.x + Rm.c0.y * w.y + Rm.c0.z * w.z) * h7 +
        (Rm.c1.x * w.x + Rm.c1.y * w.y + Rm.c1.z * w.z) * h8 + (Rm.c2.x * w.x + Rm.c2.y * w.y + Rm.c2.z * w.z) * h9)
  ext
  · linarith
  · linarith
  · linarith

theorem unit_of_one {w : V3 ℝ} (h : V3.dot w w = 1) : MpbData.unit w = w := by
  unfold MpbData.unit MpbData.norm
  rw [h, Real.sqrt_one, if_neg one_ne_zero]
  ext <;> simp

/-- C46 (axes).  For every lattice (sizes and basis vectors with non-zero volume), `compute-1-group-velocity` evaluates the
component computation `comp` exactly at the three Cartesian unit vectors. -/
theorem C46_axes (nosx nosy nosz : Bool) (size : V3 ℝ) (basis : M3 ℝ) (hd : M3.det (latticeRm nosx nosy nosz size basis) ≠ 0)
    (comp : V3 ℝ → ℝ) :
    let Rm := latticeRm nosx nosy nosz size basis
    groupVelocity1 Rm (fun dir => comp (direction (latticeGm Rm) dir)) = ⟨comp ⟨1, 0, 0⟩, comp ⟨0, 1, 0⟩, comp ⟨0, 0, 1⟩⟩ := by
  intro Rm
  have h := mulVec_reciprocal (reciprocal_of_inverse Rm hd) hd
  unfold groupVelocity1 direction
  simp only [h]
  rw [unit_of_one (by simp [V3.dot]), unit_of_one (by simp [V3.dot]), unit_of_one (by simp [V3.dot])]

/-- C46 (lattice).  A lattice point has the Cartesian coordinates of its multiples of `size` times the basis vectors; in a direction without size the
period is the basis vector itself, so that neither the lattice nor the group velocity depends on the number stored as the size. -/
theorem C46_lattice (nosx nosy nosz : Bool) (size size' : V3 ℝ) (basis : M3 ℝ) :
    (∀ i j k : ℝ, (latticeRm false false false size basis).mulVec ⟨i, j, k⟩ =
      basis.mulVec ⟨i * size.x, j * size.y, k * size.z⟩) ∧
    ((nosx = false → size'.x = size.x) → (nosy = false → size'.y = size.y) → (nosz = false → size'.z = size.z) →
      latticeRm nosx nosy nosz size' basis = latticeRm nosx nosy nosz size basis) ∧
    latticeRm nosx nosy nosz ⟨if nosx then 1 else size.x, if nosy then 1 else size.y, if nosz then 1 else size.z⟩ basis =
      latticeRm nosx nosy nosz size basis ∧
    latticeRm nosx nosy nosz size basis =
      latticeRm false false false ⟨if nosx then 1 else size.x, if nosy then 1 else size.y, if nosz then 1 else size.z⟩ basis := by
  refine ⟨fun i j k => ?_, fun hx hy hz => ?_, ?_, ?_⟩
  · ext <;> simp [latticeRm, M3.mulVec, V3.smul, V3.dot] <;> ring
  · cases nosx <;> cases nosy <;> cases nosz <;> simp_all [latticeRm]
  · cases nosx <;> cases nosy <;> cases nosz <;> simp [latticeRm]
  · cases nosx <;> cases nosy <;> cases nosz <;> simp [latticeRm]

/-- C46 (any direction).  The direction given to `compute-group-velocity-component` in the reciprocal basis is turned into the
unit vector along the Cartesian vector with those reciprocal coordinates, `Gm` holding the reciprocal lattice vectors; its
length does not matter. -/
theorem C46_direction (Rm : M3 ℝ) (hd : M3.det Rm ≠ 0) (dir : V3 ℝ) :
    IsReciprocal Rm (latticeGm Rm) ∧
    (dir ≠ 0 → V3.dot (direction (latticeGm Rm) dir) (direction (latticeGm Rm) dir) = 1 ∧
      ∃ l : ℝ, 0 < l ∧ recipVec (latticeGm Rm) dir = V3.smul l (direction (latticeGm Rm) dir)) ∧
    ∀ s : ℝ, 0 < s → direction (latticeGm Rm) (V3.smul s dir) = direction (latticeGm Rm) dir := by
  have hr := reciprocal_of_inverse Rm hd
  have hm : ∀ v, (latticeGm Rm).mulVec v = recipVec (latticeGm Rm) v := by
    intro v; ext <;> simp [M3.mulVec, recipVec] <;> ring
  refine ⟨hr, fun hne => ?_, fun s hs => ?_⟩
  · set w := (latticeGm Rm).mulVec dir with hw
    have hw0 : w ≠ 0 := by
      intro h0
      apply hne
      obtain ⟨h1, h2, h3, h4, h5, h6, h7, h8, h9⟩ := hr
      have ex : w.x = 0 := by rw [h0]; rfl
      have ey : w.y = 0 := by rw [h0]; rfl
      have ez : w.z = 0 := by rw [h0]; rfl
      simp only [hw, M3.mulVec] at ex ey ez
      simp only [V3.dot] at h1 h2 h3 h4 h5 h6 h7 h8 h9
      ext
      · change dir.x = 0
        linear_combination Rm.c0.x * ex + Rm.c0.y * ey + Rm.c0.z * ez - dir.x * h1 - dir.y * h2 - dir.z * h3
      · change dir.y = 0
        linear_combination Rm.c1.x * ex + Rm.c1.y * ey + Rm.c1.z * ez - dir.x * h4 - dir.y * h5 - dir.z * h6
      · change dir.z = 0
        linear_combination Rm.c2.x * ex + Rm.c2.y * ey + Rm.c2.z * ez - dir.x * h7 - dir.y * h8 - dir.z * h9
    have hpos : 0 < V3.dot w w := by
      have : V3.dot w w ≠ 0 := by
        intro h0
        apply hw0
        simp only [V3.dot] at h0
        ext
        · change w.x = 0; nlinarith [mul_self_nonneg w.x, mul_self_nonneg w.y, mul_self_nonneg w.z]
        · change w.y = 0; nlinarith [mul_self_nonneg w.x, mul_self_nonneg w.y, mul_self_nonneg w.z]
        · change w.z = 0; nlinarith [mul_self_nonneg w.x, mul_self_nonneg w.y, mul_self_nonneg w.z]
      have h2 : 0 ≤ V3.dot w w := by
        simp only [V3.dot]; nlinarith [mul_self_nonneg w.x, mul_self_nonneg w.y, mul_self_nonneg w.z]
      exact lt_of_le_of_ne h2 (Ne.symm this)
    have hn : 0 < MpbData.norm w := Real.sqrt_pos.2 hpos
    have hdir : direction (latticeGm Rm) dir = V3.smul (1 / MpbData.norm w) w := by
      unfold direction MpbData.unit
      rw [if_neg hn.ne']
    have hsq : MpbData.norm w * MpbData.norm w = V3.dot w w := Real.mul_self_sqrt hpos.le
    rw [hdir]
    refine ⟨?_, MpbData.norm w, hn, ?_⟩
    · have : V3.dot (V3.smul (1 / MpbData.norm w) w) (V3.smul (1 / MpbData.norm w) w) =
          (1 / MpbData.norm w) * (1 / MpbData.norm w) * V3.dot w w := by simp only [V3.dot, V3.smul]; ring
      rw [this, ← hsq]
      field_simp
    · rw [← hm, ← hw]
      ext <;> simp only [V3.smul] <;> field_simp
  · have e : (latticeGm Rm).mulVec (V3.smul s dir) = V3.smul s ((latticeGm Rm).mulVec dir) := by
      ext <;> simp [M3.mulVec] <;> ring
    unfold direction
    rw [e]
    generalize (latticeGm Rm).mulVec dir = w
    have hnorm : MpbData.norm (V3.smul s w) = s * MpbData.norm w := by
      unfold MpbData.norm
      have : V3.dot (V3.smul s w) (V3.smul s w) = s ^ 2 * V3.dot w w := by simp only [V3.dot, V3.smul]; ring
      rw [this, Real.sqrt_mul (by positivity), Real.sqrt_sq hs.le]
    unfold MpbData.unit
    rw [hnorm]
    by_cases h0 : MpbData.norm w = 0
    · rw [if_pos h0, if_pos (by rw [h0, mul_zero])]
      have hz : V3.dot w w = 0 := by
        have h1 : 0 ≤ V3.dot w w := by
          simp only [V3.dot]; nlinarith [mul_self_nonneg w.x, mul_self_nonneg w.y, mul_self_nonneg w.z]
        exact (Real.sqrt_eq_zero h1).1 h0
      simp only [V3.dot] at hz
      have hx : w.x = 0 := by nlinarith [mul_self_nonneg w.x, mul_self_nonneg w.y, mul_self_nonneg w.z]
      have hy : w.y = 0 := by nlinarith [mul_self_nonneg w.x, mul_self_nonneg w.y, mul_self_nonneg w.z]
      have hz' : w.z = 0 := by nlinarith [mul_self_nonneg w.x, mul_self_nonneg w.y, mul_self_nonneg w.z]
      ext <;> simp [V3.smul, hx, hy, hz']
    · rw [if_neg h0, if_neg (mul_ne_zero hs.ne' h0)]
      ext <;> simp only [V3.smul] <;> field_simp

/-- C46 (reciprocal variant).  If the vector returned by `compute-1-group-velocity` is the gradient of the frequency `ω` with
respect to the Cartesian wavevector, the vector returned by `compute-1-group-velocity-reciprocal` holds the partial derivatives of
`ω` with respect to the reciprocal coordinates of the k-point. -/
theorem C46_reciprocal (Rm : M3 ℝ) (comp : V3 ℝ → ℝ) (ω : V3 ℝ → ℝ) (κ : V3 ℝ)
    (hg : IsGradient ω (recipVec (latticeGm Rm) κ) (groupVelocity1 Rm comp)) :
    let Gm := latticeGm Rm
    let v := groupVelocityReciprocal Rm Gm comp
    HasDerivAt (fun t : ℝ => ω (recipVec Gm ⟨κ.x + t, κ.y, κ.z⟩)) v.x 0 ∧
    HasDerivAt (fun t : ℝ => ω (recipVec Gm ⟨κ.x, κ.y + t, κ.z⟩)) v.y 0 ∧
    HasDerivAt (fun t : ℝ => ω (recipVec Gm ⟨κ.x, κ.y, κ.z + t⟩)) v.z 0 := by
  intro Gm v
  refine ⟨?_, ?_, ?_⟩
  · have h := hg Gm.c0
    have e1 : V3.dot (groupVelocity1 Rm comp) Gm.c0 = v.x := by
      simp only [v, groupVelocityReciprocal, M3.mulVec, M3.transpose, V3.dot]; ring
    have e2 : ∀ t : ℝ, recipVec Gm κ + V3.smul t Gm.c0 = recipVec Gm ⟨κ.x + t, κ.y, κ.z⟩ := by
      intro t; ext <;> simp [recipVec] <;> ring
    rw [e1] at h
    simpa only [← e2] using h
  · have h := hg Gm.c1
    have e1 : V3.dot (groupVelocity1 Rm comp) Gm.c1 = v.y := by
      simp only [v, groupVelocityReciprocal, M3.mulVec, M3.transpose, V3.dot]; ring
    have e2 : ∀ t : ℝ, recipVec Gm κ + V3.smul t Gm.c1 = recipVec Gm ⟨κ.x, κ.y + t, κ.z⟩ := by
      intro t; ext <;> simp [recipVec] <;> ring
    rw [e1] at h
    simpa only [← e2] using h
  · have h := hg Gm.c2
    have e1 : V3.dot (groupVelocity1 Rm comp) Gm.c2 = v.z := by
      simp only [v, groupVelocityReciprocal, M3.mulVec, M3.transpose, V3.dot]; ring
    have e2 : ∀ t : ℝ, recipVec Gm κ + V3.smul t Gm.c2 = recipVec Gm ⟨κ.x, κ.y, κ.z + t⟩ := by
      intro t; ext <;> simp [recipVec] <;> ring
    rw [e1] at h
    simpa only [← e2] using h

/-- Non-vacuity: a triangular lattice (in `z` of no size) has non-zero volume. -/
example : M3.det (latticeRm false false true ⟨1, 1, 1e-20⟩ ⟨⟨1, 1/2, 0⟩, ⟨1, -1/2, 0⟩, ⟨0, 0, 1⟩⟩) ≠ 0 := by
  simp only [latticeRm, M3.det, V3.smul]
  norm_num

/-! ### C67: the solution is left alone, and the functions agree -/

theorem bandForm_eq {d : OpData} (hW : AdjointTransforms d) {K : ℕ → V3 ℝ} (hK : ∀ G < d.N, IsBasis (K G) (d.kpg G)) (u : V3 ℝ)
    (h : ℕ → ℂ × ℂ) : bandForm d u h = velocityForm d K u h := by
  unfold bandForm velocityForm
  congr 1
  rw [← ip_cart hK]
  have h1 := ip_crossC2t hW hK (fun G => cart (d.kpg G) (h G)) (fun r => (d.epsInv r).mulVec (ucrossField d u h r))
  have h2 : transform d.Wf d.N (fun G => ucrossT2c u (d.kpg G) (h G).1 (h G).2) = ucrossField d u h := by
    simp only [C02_ucross]; rfl
  unfold colOp
  rw [h2]
  exact h1

/-- C67 (partial: no permeability, or the bands are solved in several blocks).  Each group velocity function terminates and
leaves the eigenvectors as they are; the value for every band is `Re⟨curl h|ε⁻¹|u × h⟩ / ω` (zero for a band of frequency zero), whatever the block size, the
number of bands transformed at once and the old contents of the work arrays; `compute-1-group-velocity-component` returns the same
number for the band as `compute-group-velocity-component`.  Missing: permeability with a single block (see
`C67_changes_solution_refuted`). -/
theorem C67_component_partial (v : VData) (hn : 0 < v.d.nfb) (ha : 0 < v.alloc)
    (hs : v.same = true → v.alloc = v.p ∧ v.d.muInv = none) (hW : AdjointTransforms v.d) (K : ℕ → V3 ℝ)
    (hK : ∀ G < v.d.N, IsBasis (K G) (v.d.kpg G)) (u : V3 ℝ) (bufs : ℕ → ℕ → ℕ → ℂ) (W0 Hb H : ℕ → ℂ) (junk : ℕ → ℝ) :
    ∃ gv, component v u bufs W0 Hb H junk = some (H, gv) ∧
      (∀ b < v.p, (v.freqs b = 0 → gv b = 0) ∧ (v.freqs b ≠ 0 →
        gv b = velocityForm v.d K u (bandMuinv v.d (band v.p H b)) / if v.neg then Real.sqrt |v.freqs b| else v.freqs b)) ∧
      ∀ b < v.p, ∀ (bufs1 : ℕ → ℕ → ℂ) (W0' W1 : ℕ → ℂ), component1 v u bufs1 W0' W1 H b = some (gv b) := by
  obtain ⟨gv, h1, h2⟩ := component_eq v hn ha hs u bufs W0 Hb H junk
  refine ⟨gv, h1, fun b hb => ?_, fun b hb bufs1 W0' W1 => ?_⟩
  · rw [h2 b hb, bandForm_eq hW hK]
    unfold scaleByFreq
    exact ⟨fun h => if_pos h, fun h => if_neg h⟩
  · rw [component1_eq v hn, h2 b hb]

/-- C67 (partial, all three components).  Under the same conditions `compute-group-velocities` leaves the eigenvectors as they
are, and returns for every band the vector `compute-1-group-velocity` returns for it. -/
theorem C67_velocities_partial (v : VData) (hn : 0 < v.d.nfb) (ha : 0 < v.alloc)
    (hs : v.same = true → v.alloc = v.p ∧ v.d.muInv = none) (ux uy uz : V3 ℝ) (bufs : ℕ → ℕ → ℕ → ℕ → ℂ) (W0 Hb : ℕ → ℕ → ℂ)
    (H : ℕ → ℂ) (junk : ℕ → ℕ → ℝ) (bufs1 : ℕ → ℕ → ℂ) (W0' W1 : ℕ → ℂ) :
    ∃ gv, groupVelocities v ux uy uz bufs W0 Hb H junk = some (H, gv) ∧
      ∀ b < v.p, component1 v ux bufs1 W0' W1 H b = some (gv b).x ∧ component1 v uy bufs1 W0' W1 H b = some (gv b).y ∧
        component1 v uz bufs1 W0' W1 H b = some (gv b).z := by
  obtain ⟨gx, x1, x2⟩ := component_eq v hn ha hs ux (bufs 0) (W0 0) (Hb 0) H (junk 0)
  obtain ⟨gy, y1, y2⟩ := component_eq v hn ha hs uy (bufs 1) (W0 1) (Hb 1) H (junk 1)
  obtain ⟨gz, z1, z2⟩ := component_eq v hn ha hs uz (bufs 2) (W0 2) (Hb 2) H (junk 2)
  refine ⟨fun b => ⟨gx b, gy b, gz b⟩, ?_, fun b hb => ?_⟩
  · unfold groupVelocities
    rw [x1]; simp only [Option.bind_eq_bind, Option.bind_some]
    rw [y1]; simp only [Option.bind_some]
    rw [z1]; rfl
  · rw [component1_eq v hn, component1_eq v hn, component1_eq v hn]
    simp only
    rw [x2 b hb, y2 b hb, z2 b hb]
    exact ⟨rfl, rfl, rfl⟩

/-- C67 fails with a permeability when all bands are one block (the default for up to eleven bands): then the stored eigenvectors
are replaced by `μ⁻¹` applied to them, for every input. -/
theorem C67_changes_solution_refuted (v : VData) (hn : 0 < v.d.nfb) (hp : 0 < v.p) (ha : v.alloc = v.p) (hs : v.same = true)
    (mu : ℕ → HMat) (hmu : v.d.muInv = some mu) (u : V3 ℝ) (bufs : ℕ → ℕ → ℕ → ℂ) (W0 Hb H : ℕ → ℂ) (junk : ℕ → ℝ) :
    ∃ H' gv, component v u bufs W0 Hb H junk = some (H', gv) ∧
      (∀ b < v.p, ∀ G < v.d.N, band v.p H' b G = bandMu v.d mu (band v.p H b) G) ∧
      ∀ b < v.p, gv b = scaleByFreq v.neg (v.freqs b) (bandForm v.d u (bandMu v.d mu (band v.p H b))) := by
  have hnum : v.num 0 = v.p := by unfold VData.num; omega
  have hlist : blockStarts v.alloc v.p 0 = [0] := by
    rw [blockStarts, if_pos ⟨hp, by omega⟩, blockStarts, if_neg (by omega)]
  have hblk : ∀ G < v.d.N, ∀ b < v.p, band v.p (v.block H Hb (bufs 0 0) 0) (0 + b) G = bandMu v.d mu (band v.p H (0 + b)) G := by
    intro G hG b hb
    have := HFromB_apply v.d v.same (pin := v.p) (pout := v.p) H H (bufs 0 0) (bstart := 0) (hstart := 0) (num := v.p) (by omega)
      (fun _ => ⟨rfl, rfl, rfl⟩) G hG b hb
    unfold VData.block
    rw [hnum, if_pos hs, this]
    unfold bandMuinv
    rw [hmu]
  obtain ⟨Wr, hWr, hd⟩ := diag_of_ucross hn u v.p (fun i => bufs 0 (i + 1)) (v.block H Hb (bufs 0 0) 0) W0
  have hstep : blockStep v u bufs W0 ⟨H, Hb, junk⟩ 0 = some ⟨v.block H Hb (bufs 0 0) 0,
      v.block H Hb (bufs 0 0) 0, fun b => if 0 ≤ b ∧ b < 0 + v.p then
        xtyDiagReal (v.block H Hb (bufs 0 0) 0) Wr (v.d.N * 2) v.p (b - 0) else junk b⟩ := by
    unfold blockStep
    simp only [hnum, hWr, Option.map_some, hs, if_true]
  refine ⟨v.block H Hb (bufs 0 0) 0, fun b => scaleByFreq v.neg (v.freqs b) (if 0 ≤ b ∧ b < 0 + v.p then
    xtyDiagReal (v.block H Hb (bufs 0 0) 0) Wr (v.d.N * 2) v.p (b - 0) else junk b), ?_, fun b hb G hG => ?_, fun b hb => ?_⟩
  rotate_left
  · have := hblk G hG b hb
    rwa [Nat.zero_add] at this
  rotate_left
  · unfold component
    rw [if_neg (by omega), hlist, List.foldlM_cons, hstep]
    rfl
  · simp only
    rw [if_pos (by omega), Nat.sub_zero, hd b hb]
    congr 1
    refine bandForm_congr (fun G hG => ?_)
    have := hblk G hG b hb
    rwa [Nat.zero_add] at this

/-! A homogeneous medium with one planewave. -/

/-- The stored basis for a wavevector `(1, t, 0)`. -/
theorem kData_xy (t : ℝ) : kData ⟨1, t, 0⟩ = ⟨Real.sqrt (1 + t ^ 2), ⟨0, 0, -1⟩, ⟨-t / Real.sqrt (1 + t ^ 2), 1 / Real.sqrt (1 + t ^ 2), 0⟩⟩ := by
  have hpos : 0 < 1 + t ^ 2 := by positivity
  have hs : 0 < Real.sqrt (1 + t ^ 2) := Real.sqrt_pos.2 hpos
  have hsq : Real.sqrt (1 + t ^ 2) * Real.sqrt (1 + t ^ 2) = 1 + t ^ 2 := Real.mul_self_sqrt hpos.le
  have e0 : (1 : ℝ) * 1 + t * t + 0 * 0 = 1 + t ^ 2 := by ring
  unfold kData
  simp only
  rw [e0, if_neg hpos.ne', if_neg (by simp)]
  have en : Maxwell.normalize (V3.cross ⟨0, 0, 1⟩ ⟨1, t, 0⟩) = ⟨-t / Real.sqrt (1 + t ^ 2), 1 / Real.sqrt (1 + t ^ 2), 0⟩ := by
    unfold Maxwell.normalize V3.cross
    simp only
    have : (0 * 0 - 1 * t) * (0 * 0 - 1 * t) + (1 * 1 - 0 * 0) * (1 * 1 - 0 * 0) + (0 * t - 0 * 1) * (0 * t - 0 * 1) = 1 + t ^ 2 := by ring
    rw [this]
    ext <;> simp [div_eq_mul_inv]
  rw [en]
  generalize Real.sqrt (1 + t ^ 2) = q at *
  congr 1
  unfold Maxwell.normalize V3.cross
  simp only
  have hz : -t / q * t - 1 / q * 1 = -q := by
    field_simp
    linear_combination hsq
  rw [hz]
  have : (1 / q * 0 - 0 * t) * (1 / q * 0 - 0 * t) + (0 * 1 - -t / q * 0) * (0 * 1 - -t / q * 0) + -q * -q = q ^ 2 := by ring
  rw [this, Real.sqrt_sq hs.le]
  ext <;> simp
  field_simp

/-- One planewave of wavevector `(1, t, 0)`, dielectric constant 1, inverse permeability `mu`. -/
noncomputable def oneWave (mu : Option (ℕ → HMat)) (t : ℝ) : OpData :=
  ⟨1, 1, 1, fun _ => kData ⟨1, t, 0⟩, fun _ => ⟨1, 1, 1, 0, 0, 0⟩, mu, fun _ _ => 1, fun _ _ => 1⟩

theorem oneWave_N (mu : Option (ℕ → HMat)) (t : ℝ) : (oneWave mu t).N = 1 := rfl

/-- C67 fails, concretely: one planewave in a homogeneous medium with `μ = 2`, one band.  Calling
`compute-group-velocity-component` twice for the same direction gives two different answers, 1 and then 1/4. -/
theorem C67_repeat_refuted (bufs bufs' : ℕ → ℕ → ℕ → ℂ) (W0 W0' Hb Hb' : ℕ → ℂ) (junk junk' : ℕ → ℝ) :
    let v : VData := ⟨oneWave (some fun _ => ⟨1/2, 1/2, 1/2, 0, 0, 0⟩) 0, 1, 1, true, false, fun _ => 1⟩
    let H : ℕ → ℂ := fun i => if i = 0 then 2 else 0
    ∃ H' gv H'' gv', component v ⟨1, 0, 0⟩ bufs W0 Hb H junk = some (H', gv) ∧
      component v ⟨1, 0, 0⟩ bufs' W0' Hb' H' junk' = some (H'', gv') ∧ gv 0 = 1 ∧ gv' 0 = 1 / 4 := by
  intro v H
  obtain ⟨H', gv, h1, h2, h3⟩ := C67_changes_solution_refuted v (by decide) (by decide) rfl rfl _ rfl ⟨1, 0, 0⟩ bufs W0 Hb H junk
  obtain ⟨H'', gv', h1', h2', h3'⟩ := C67_changes_solution_refuted v (by decide) (by decide) rfl rfl _ rfl ⟨1, 0, 0⟩ bufs' W0' Hb' H' junk'
  have hN : v.d.N = 1 := rfl
  have hk : ∀ G, v.d.kpg G = ⟨1, ⟨0, 0, -1⟩, ⟨0, 1, 0⟩⟩ := by
    intro G
    have := kData_xy 0
    simpa [v, oneWave] using this
  have hmu : ∀ x : ℕ → ℂ × ℂ, bandMu v.d (fun _ => ⟨1/2, 1/2, 1/2, 0, 0, 0⟩) x 0 = ((x 0).1 / 2, (x 0).2 / 2) := by
    intro x
    unfold bandMu colOp transform
    rw [hN]
    simp only [hk, Finset.sum_range_one]
    refine Prod.ext ?_ ?_ <;> apply Complex.ext <;> simp [v, oneWave, c2t, t2c, HMat.mulVec] <;> ring
  have hf : ∀ x : ℕ → ℂ × ℂ, bandForm v.d ⟨1, 0, 0⟩ x = Complex.normSq (x 0).1 + Complex.normSq (x 0).2 := by
    intro x
    unfold bandForm Spec.inner colOp transform
    rw [hN]
    simp only [hk, Finset.sum_range_one]
    simp [v, oneWave, crossC2t, ucrossT2c, HMat.mulVec, hermT, Complex.normSq_apply]
  have hb : bandMu v.d (fun _ => ⟨1/2, 1/2, 1/2, 0, 0, 0⟩) (band 1 H 0) 0 = (1, 0) := by
    rw [hmu]
    refine Prod.ext ?_ ?_ <;> simp [band, H]
  have hb' : bandMu v.d (fun _ => ⟨1/2, 1/2, 1/2, 0, 0, 0⟩) (band 1 H' 0) 0 = (1 / 2, 0) := by
    rw [hmu]
    have := h2 0 (by decide) 0 (by decide)
    have e : band 1 H' 0 0 = (1, 0) := this.trans hb
    rw [e]
    simp
  refine ⟨H', gv, H'', gv', h1, h1', ?_, ?_⟩
  · rw [h3 0 (by decide), hf]
    have : (band v.p H 0) = band 1 H 0 := rfl
    rw [this, hb]
    simp [scaleByFreq, v]
  · rw [h3' 0 (by decide), hf]
    have : (band v.p H' 0) = band 1 H' 0 := rfl
    rw [this, hb']
    simp [scaleByFreq, v, Complex.normSq_apply]
    norm_num

/-! ### C69: the group velocity is the derivative of the frequency -/

/-- The eigenvalue equation of a family, for one band. -/
theorem family_eigen {D : ℝ → OpData} {K : ℕ → V3 ℝ} {u : V3 ℝ} {p b : ℕ} {H : ℝ → ℕ → ℂ} {lam : ℝ → ℝ}
    (h : BandFamily D K u p b H lam) : ∀ᶠ t in 𝓝 (0 : ℝ), ∀ G < (D 0).N, bandMaxwell (D t) (band p (H t) b) G =
      ((lam t : ℂ) * (bandMuinv (D t) (band p (H t) b) G).1, (lam t : ℂ) * (bandMuinv (D t) (band p (H t) b) G).2) := by
  filter_upwards [h.eigen] with t ht G hG
  have hN : (D t).N = (D 0).N := by rw [h.same t]; rfl
  have hn : 0 < (D t).nfb := by rw [h.same t]; exact h.nfb
  obtain ⟨R, hR, h1, -⟩ := C04_bands (D t) p hn (fun _ _ => 0) (H t) (fun _ => 0)
  obtain ⟨S, hS, h2, -⟩ := C04_muinv_bands (D t) p hn (fun _ _ => 0) (H t) (fun _ => 0)
  have := ht _ _ R S hR hS G hG
  rwa [h1 b h.hb G (by rw [hN]; exact hG), h2 b h.hb G (by rw [hN]; exact hG)] at this

theorem family_norm {D : ℝ → OpData} {K : ℕ → V3 ℝ} {u : V3 ℝ} {p b : ℕ} {H : ℝ → ℕ → ℂ} {lam : ℝ → ℝ}
    (h : BandFamily D K u p b H lam) :
    Maxwell.Spec.inner (D 0).N (band p (H 0) b) (bandMuinv (D 0) (band p (H 0) b)) = 1 := by
  obtain ⟨S, hS, h2, -⟩ := C04_muinv_bands (D 0) p h.nfb (fun _ _ => 0) (H 0) (fun _ => 0)
  rw [← h.norm _ _ S hS]
  exact inner_congr (fun _ _ => rfl) (fun G hG => (h2 b h.hb G hG).symm)

theorem bandMaxwell_none {d : OpData} (h : d.muInv = none) (x : ℕ → ℂ × ℂ) : bandMaxwell d x = bandOp d x := by
  unfold bandMaxwell; rw [h]

theorem bandMuinv_none {d : OpData} (h : d.muInv = none) (x : ℕ → ℂ × ℂ) : bandMuinv d x = x := by
  unfold bandMuinv; rw [h]

theorem bandMaxwell_some {d : OpData} {mu : ℕ → HMat} (h : d.muInv = some mu) (x : ℕ → ℂ × ℂ) :
    bandMaxwell d x = bandMu d mu (bandOp d (bandMu d mu x)) := by
  unfold bandMaxwell; rw [h]

theorem bandMuinv_some {d : OpData} {mu : ℕ → HMat} (h : d.muInv = some mu) (x : ℕ → ℂ × ℂ) : bandMuinv d x = bandMu d mu x := by
  unfold bandMuinv; rw [h]

/-- The derivative of the eigenvalue, with or without permeability. -/
theorem family_deriv {D : ℝ → OpData} {K : ℕ → V3 ℝ} {u : V3 ℝ} {p b : ℕ} {H : ℝ → ℕ → ℂ} {lam : ℝ → ℝ}
    (h : BandFamily D K u p b H lam) (htr : TransverseH (D 0) (band p (H 0) b)) :
    HasDerivAt lam (2 * velocityForm (D 0) K u (bandMuinv (D 0) (band p (H 0) b))) 0 := by
  have hK0 : ∀ G < (D 0).N, IsBasis (K G) ((D 0).kpg G) := by
    intro G hG
    have := h.basis 0 G hG
    have e : K G + V3.smul (0 : ℝ) u = K G := by ext <;> simp
    rwa [e] at this
  have heig := family_eigen h
  have hnorm := family_norm h
  have hD : ∀ t, ∃ kp, D t = (withK (D 0) kp) := fun t => ⟨_, h.same t⟩
  cases hmu : (D 0).muInv with
  | none =>
    have hnorm' : ip (D 0).N (fun G => cart ((D 0).kpg G) (band p (H 0) b G)) (fun G => cart ((D 0).kpg G) (band p (H 0) b G)) = 1 := by
      rw [ip_cart hK0, ← hnorm]
      unfold bandMuinv
      rw [hmu]
    have := hasDerivAt_of_weak (d := D 0) K u (fun t G => cart ((D t).kpg G) (band p (H t) b G))
      (fun t G => cart ((D t).kpg G) (band p (H t) b G)) lam h.contx h.conty h.contz h.contx h.conty h.contz hnorm'
      (fun t => ip_symm _ _ _) ?_
    · unfold bandMuinv velocityForm
      rw [hmu]
      exact this
    · filter_upwards [heig] with t ht a
      have hb := h.basis t
      obtain ⟨kp, hkp⟩ := hD t
      rw [hkp] at ht hb ⊢
      have hW : AdjointTransforms (withK (D 0) kp) := h.adjoint
      refine weak_form hW hb (band p (H t) b) (lam t) (fun G hG => ?_) a
      have := ht G hG
      rwa [bandMaxwell_none (d := withK (D 0) kp) hmu, bandMuinv_none (d := withK (D 0) kp) hmu] at this
  | some mu =>
    obtain ⟨hpd, hspan⟩ := htr mu hmu
    have hnorm' : ip (D 0).N (muField (D 0) mu (fun G => cart ((D 0).kpg G) (band p (H 0) b G))) (fun G => cart ((D 0).kpg G) (band p (H 0) b G)) = 1 := by
      rw [← ip_muField_symm h.adjoint, ip_muField h.adjoint, ← hnorm]
      unfold bandMuinv
      rw [hmu]
      exact (inner_plain h.adjoint mu _ _).symm
    have hc := fun G => continuousAt_muField (D 0) mu h.contx h.conty h.contz G
    have := hasDerivAt_of_weak (d := D 0) K u (fun t => muField (D 0) mu (fun G => cart ((D t).kpg G) (band p (H t) b G)))
      (fun t G => cart ((D t).kpg G) (band p (H t) b G)) lam (fun G _ => (hc G).1) (fun G _ => (hc G).2.1) (fun G _ => (hc G).2.2)
      h.contx h.conty h.contz hnorm'
      (fun t => by rw [← ip_symm, ← ip_muField_symm h.adjoint]) ?_
    · have hh : ∀ G < (D 0).N, cart ((D 0).kpg G) (bandMu (D 0) mu (band p (H 0) b) G) =
          muField (D 0) mu (fun G => cart ((D 0).kpg G) (band p (H 0) b G)) G := by
        intro G hG
        obtain ⟨w, hw⟩ := hspan G hG
        rw [bandMu_eq, hw]
        have := C02_roundtrip (K G) _ (hK0 G hG) w.1 w.2 1
        rw [C02_t2c] at this
        rw [this]
        simp
      unfold bandMuinv velocityForm
      rw [hmu]
      have e1 : curlField (D 0) K (bandMu (D 0) mu (band p (H 0) b)) =
          cf (D 0) K (muField (D 0) mu (fun G => cart ((D 0).kpg G) (band p (H 0) b G))) := cf_bandMu hK0 mu _
      have e2 : ucrossField (D 0) u (bandMu (D 0) mu (band p (H 0) b)) =
          cf (D 0) (fun _ => u) (muField (D 0) mu (fun G => cart ((D 0).kpg G) (band p (H 0) b G))) :=
        transform_congr (fun G hG => by rw [hh G hG])
      simp only
      rw [e1, e2]
      exact this
    · filter_upwards [heig] with t ht a
      have hb := h.basis t
      obtain ⟨kp, hkp⟩ := hD t
      rw [hkp] at ht hb ⊢
      have hW : AdjointTransforms (withK (D 0) kp) := h.adjoint
      have hI : InverseTransforms (withK (D 0) kp) := h.inverse
      refine weak_form_mu hW hI hb (mu := mu) hpd (band p (H t) b) (lam t) (fun G hG => ?_) a
      have := ht G hG
      rwa [bandMaxwell_some (d := withK (D 0) kp) hmu, bandMuinv_some (d := withK (D 0) kp) hmu] at this

/-- C69 (partial: no permeability, or one for which the magnetic field of the band is transverse).  Follow a band in a direction
`u`: at `k + t u` it is an eigenvector of the operators given to the eigensolver, normalised, its field continuous in `t`.  Then
the number `compute-1-group-velocity-component` returns at `t = 0` is the derivative of the frequency `ω(t)` along `u`.  (By
`C67_component_partial` this is also the value of `compute-group-velocity-component`.)  Missing: permeabilities for which
`μ⁻¹ B` is not transverse (see `C69_mu_refuted`). -/
theorem C69_derivative_partial (D : ℝ → OpData) (K : ℕ → V3 ℝ) (u : V3 ℝ) (p b : ℕ) (H : ℝ → ℕ → ℂ) (lam : ℝ → ℝ)
    (h : BandFamily D K u p b H lam) (htr : TransverseH (D 0) (band p (H 0) b)) (v : VData) (hv : v.d = D 0) (hp : v.p = p)
    (hf : FreqOf v.neg (v.freqs b) (lam 0)) (bufs : ℕ → ℕ → ℂ) (W0 W1 : ℕ → ℂ) :
    ∃ gv, component1 v u bufs W0 W1 (H 0) b = some gv ∧ HasDerivAt (fun t => Real.sqrt (lam t)) gv 0 := by
  have hK0 : ∀ G < (D 0).N, IsBasis (K G) ((D 0).kpg G) := by
    intro G hG
    have := h.basis 0 G hG
    have e : K G + V3.smul (0 : ℝ) u = K G := by ext <;> simp
    rwa [e] at this
  have hd := (family_deriv h htr).sqrt h.pos.ne'
  refine ⟨_, component1_eq v (by rw [hv]; exact h.nfb) u bufs W0 W1 (H 0) b, ?_⟩
  rw [hv, hp, bandForm_eq h.adjoint hK0]
  generalize velocityForm (D 0) K u (bandMuinv (D 0) (band p (H 0) b)) = q at hd
  have hs : 0 < Real.sqrt (lam 0) := Real.sqrt_pos.2 h.pos
  have e : scaleByFreq v.neg (v.freqs b) q = 2 * q / (2 * Real.sqrt (lam 0)) := by
    unfold scaleByFreq FreqOf at *
    cases hneg : v.neg with
    | true =>
      rw [hneg] at hf
      simp only [if_true] at hf ⊢
      rw [hf, if_neg h.pos.ne', abs_of_pos h.pos]
      field_simp
    | false =>
      rw [hneg] at hf
      simp only [Bool.false_eq_true, if_false] at hf ⊢
      rw [hf, if_neg hs.ne']
      field_simp
  rw [e]
  exact hd

/-! The one-planewave family: wavevectors `(1, t, 0)`, band along the second transverse vector. -/

theorem oneWave_op (mu : Option (ℕ → HMat)) (t : ℝ) (x : ℕ → ℂ × ℂ) :
    bandOp (oneWave mu t) x 0 = (((1 + t ^ 2 : ℝ) : ℂ) * (x 0).1, ((1 + t ^ 2 : ℝ) : ℂ) * (x 0).2) := by
  have hpos : 0 < 1 + t ^ 2 := by positivity
  have hs : 0 < Real.sqrt (1 + t ^ 2) := Real.sqrt_pos.2 hpos
  have hsq : Real.sqrt (1 + t ^ 2) * Real.sqrt (1 + t ^ 2) = 1 + t ^ 2 := Real.mul_self_sqrt hpos.le
  unfold bandOp colOp transform
  rw [oneWave_N]
  have hk : ∀ G, (oneWave mu t).kpg G = _ := fun G => kData_xy t
  simp only [hk, Finset.sum_range_one]
  generalize Real.sqrt (1 + t ^ 2) = s at *
  rw [← hsq]
  have hne : s ≠ 0 := hs.ne'
  have ht : t ^ 2 = s * s - 1 := by linarith
  refine Prod.ext ?_ ?_ <;> apply Complex.ext <;> simp [oneWave, crossC2t, crossT2c, HMat.mulVec] <;> field_simp <;>
    first | linear_combination (x 0).1.re * ht | linear_combination (x 0).1.im * ht | linear_combination (x 0).2.re * ht | linear_combination (x 0).2.im * ht

theorem oneWave_mu (t : ℝ) (c : ℂ) (x : ℕ → ℂ × ℂ) (hx : x 0 = (0, c)) :
    bandMu (oneWave (some fun _ => ⟨1, 1, 1, 1 / 2, 0, 0⟩) t) (fun _ => ⟨1, 1, 1, 1 / 2, 0, 0⟩) x 0 =
      (0, (((t ^ 2 - t + 1) / (1 + t ^ 2) : ℝ) : ℂ) * c) := by
  have hpos : 0 < 1 + t ^ 2 := by positivity
  have hs : 0 < Real.sqrt (1 + t ^ 2) := Real.sqrt_pos.2 hpos
  have hsq : Real.sqrt (1 + t ^ 2) * Real.sqrt (1 + t ^ 2) = 1 + t ^ 2 := Real.mul_self_sqrt hpos.le
  have hq : (t ^ 2 - t + 1) / (1 + t ^ 2) * (1 + t ^ 2) = t ^ 2 - t + 1 := by field_simp
  unfold bandMu colOp transform
  rw [oneWave_N]
  have hk : ∀ G, (oneWave (some fun _ => ⟨1, 1, 1, 1 / 2, 0, 0⟩) t).kpg G = _ := fun G => kData_xy t
  simp only [hk, Finset.sum_range_one, hx]
  generalize (t ^ 2 - t + 1) / (1 + t ^ 2) = q at *
  generalize Real.sqrt (1 + t ^ 2) = s at *
  rw [← hsq] at hq
  have hne : s ≠ 0 := hs.ne'
  refine Prod.ext ?_ ?_ <;> apply Complex.ext <;> simp [oneWave, c2t, t2c, HMat.mulVec] <;> field_simp <;>
    first
      | linear_combination -c.re * hq
      | linear_combination -2 * c.re * hq
      | linear_combination -c.im * hq
      | linear_combination -2 * c.im * hq

/-- The amplitudes `(0, 1)`. -/
def unit2 : ℕ → ℂ := fun i => if i = 1 then 1 else 0

theorem band_unit2 : band 1 unit2 0 0 = (0, 1) := by simp [band, unit2]

theorem oneWave_family (mu : Option (ℕ → HMat)) (lam : ℝ → ℝ) (hpos : 0 < lam 0)
    (heig : ∀ t, bandMaxwell (oneWave mu t) (band 1 unit2 0) 0 =
      ((lam t : ℂ) * (bandMuinv (oneWave mu t) (band 1 unit2 0) 0).1, (lam t : ℂ) * (bandMuinv (oneWave mu t) (band 1 unit2 0) 0).2))
    (hnorm : (bandMuinv (oneWave mu 0) (band 1 unit2 0) 0).2 = 1) :
    BandFamily (oneWave mu) (fun _ => ⟨1, 0, 0⟩) ⟨0, 1, 0⟩ 1 0 (fun _ => unit2) lam where
  same := fun t => rfl
  nfb := by simp [oneWave]
  hb := by omega
  adjoint := fun G _ r _ => by simp [oneWave]
  inverse := fun G hG G' hG' => by
    rw [oneWave_N] at *
    obtain rfl : G = 0 := by omega
    obtain rfl : G' = 0 := by omega
    simp [oneWave]
  basis := fun t G hG => by
    have e : (⟨1, 0, 0⟩ : V3 ℝ) + V3.smul t ⟨0, 1, 0⟩ = ⟨1, t, 0⟩ := by ext <;> simp
    rw [e]
    exact kData_isBasis _
  eigen := by
    refine Filter.Eventually.of_forall (fun t bufs Xo R S hR hS G hG => ?_)
    rw [oneWave_N] at hG
    obtain rfl : G = 0 := by omega
    have hn : 0 < (oneWave mu t).nfb := by simp [oneWave]
    obtain ⟨R', hR', h1, -⟩ := C04_bands (oneWave mu t) 1 hn bufs unit2 Xo
    obtain ⟨S', hS', h2, -⟩ := C04_muinv_bands (oneWave mu t) 1 hn bufs unit2 Xo
    obtain rfl : R' = R := by rw [hR'] at hR; exact Option.some.inj hR
    obtain rfl : S' = S := by rw [hS'] at hS; exact Option.some.inj hS
    rw [h1 0 (by omega) 0 (by rw [oneWave_N]; omega), h2 0 (by omega) 0 (by rw [oneWave_N]; omega)]
    exact heig t
  norm := fun bufs Xo S hS => by
    have hn : 0 < (oneWave mu 0).nfb := by simp [oneWave]
    obtain ⟨S', hS', h2, -⟩ := C04_muinv_bands (oneWave mu 0) 1 hn bufs unit2 Xo
    obtain rfl : S' = S := by rw [hS'] at hS; exact Option.some.inj hS
    unfold Maxwell.Spec.inner
    rw [oneWave_N, Finset.sum_range_one, h2 0 (by omega) 0 (by rw [oneWave_N]; omega), band_unit2]
    simp [hermT, hnorm]
  contx := fun G hG => by
    have hk : ∀ t, (oneWave mu t).kpg G = _ := fun t => kData_xy t
    rw [oneWave_N] at hG
    obtain rfl : G = 0 := by omega
    simp only [hk, cart, band_unit2]
    have : ∀ t : ℝ, Real.sqrt (1 + t ^ 2) ≠ 0 := fun t => (Real.sqrt_pos.2 (by positivity)).ne'
    have hc : Continuous fun t : ℝ => -t / Real.sqrt (1 + t ^ 2) :=
      continuous_neg.div (by fun_prop) this
    refine Continuous.continuousAt ?_
    have := Complex.continuous_ofReal.comp hc
    simpa [toC, Function.comp_def] using this
  conty := fun G hG => by
    have hk : ∀ t, (oneWave mu t).kpg G = _ := fun t => kData_xy t
    rw [oneWave_N] at hG
    obtain rfl : G = 0 := by omega
    simp only [hk, cart, band_unit2]
    have : ∀ t : ℝ, Real.sqrt (1 + t ^ 2) ≠ 0 := fun t => (Real.sqrt_pos.2 (by positivity)).ne'
    have hc : Continuous fun t : ℝ => 1 / Real.sqrt (1 + t ^ 2) :=
      continuous_const.div (by fun_prop) this
    refine Continuous.continuousAt ?_
    have := Complex.continuous_ofReal.comp hc
    simpa [toC, Function.comp_def] using this
  contz := fun G hG => by
    have hk : ∀ t, (oneWave mu t).kpg G = _ := fun t => kData_xy t
    rw [oneWave_N] at hG
    obtain rfl : G = 0 := by omega
    simp only [hk, cart, band_unit2]
    refine Continuous.continuousAt ?_
    simp [toC]
    exact continuous_const
  pos := hpos

/-- Non-vacuity of `C69_derivative_partial`: the light line of vacuum, `ω(t) = sqrt(1 + t²)`. -/
example : BandFamily (oneWave none) (fun _ => ⟨1, 0, 0⟩) ⟨0, 1, 0⟩ 1 0 (fun _ => unit2) (fun t => 1 + t ^ 2) ∧
    TransverseH (oneWave none 0) (band 1 unit2 0) := by
  refine ⟨oneWave_family none _ (by norm_num) (fun t => ?_) ?_, fun mu h => by cases h⟩
  · rw [bandMaxwell_none rfl, bandMuinv_none rfl, oneWave_op]
  · rw [bandMuinv_none rfl, band_unit2]

/-- C69 fails for an anisotropic permeability.  One planewave in the homogeneous medium with `ε = 1` and inverse permeability
`[[1, 1/2, 0], [1/2, 1, 0], [0, 0, 1]]`, at `k = (1, 0, 0)`, direction `y`.  The band of frequency `ω(t) = sqrt(t² - t + 1)` at
`(1, t, 0)` satisfies every hypothesis except that `μ⁻¹ B` be transverse; its derivative is -1/2, and the computed group velocity
component is 0. -/
theorem C69_mu_refuted (v : VData) (hv : v.d = oneWave (some fun _ => ⟨1, 1, 1, 1 / 2, 0, 0⟩) 0) (hp : v.p = 1)
    (bufs : ℕ → ℕ → ℂ) (W0 W1 : ℕ → ℂ) :
    BandFamily (oneWave (some fun _ => ⟨1, 1, 1, 1 / 2, 0, 0⟩)) (fun _ => ⟨1, 0, 0⟩) ⟨0, 1, 0⟩ 1 0 (fun _ => unit2)
      (fun t => t ^ 2 - t + 1) ∧
    HasDerivAt (fun t : ℝ => Real.sqrt (t ^ 2 - t + 1)) (-1 / 2) 0 ∧
    component1 v ⟨0, 1, 0⟩ bufs W0 W1 unit2 0 = some 0 := by
  refine ⟨oneWave_family _ _ (by norm_num) (fun t => ?_) ?_, ?_, ?_⟩
  · rw [bandMaxwell_some rfl, bandMuinv_some rfl, oneWave_mu t 1 _ band_unit2]
    have h1 := oneWave_mu t 1 _ band_unit2
    have h2 : bandOp (oneWave (some fun _ => ⟨1, 1, 1, 1 / 2, 0, 0⟩) t)
        (bandMu (oneWave (some fun _ => ⟨1, 1, 1, 1 / 2, 0, 0⟩) t) (fun _ => ⟨1, 1, 1, 1 / 2, 0, 0⟩) (band 1 unit2 0)) 0 =
        (0, ((t ^ 2 - t + 1 : ℝ) : ℂ)) := by
      rw [oneWave_op, h1]
      have hpos : (1 : ℝ) + t ^ 2 ≠ 0 := by positivity
      refine Prod.ext (by simp) ?_
      simp only [mul_one]
      rw [← Complex.ofReal_mul]
      congr 1
      field_simp
    rw [oneWave_mu t _ _ h2]
    refine Prod.ext (by simp) ?_
    simp only [mul_one]
    ring
  · rw [bandMuinv_some rfl, oneWave_mu 0 1 _ band_unit2]
    norm_num
  · have h : HasDerivAt (fun t : ℝ => t ^ 2 - t + 1) (-1) 0 := by
      have := (((hasDerivAt_id (0 : ℝ)).pow 2).sub (hasDerivAt_id (0 : ℝ))).add_const 1
      simpa using this
    have := h.sqrt (by norm_num)
    simpa using this
  · rw [component1_eq v (by rw [hv]; simp [oneWave]), hv, hp, bandMuinv_some rfl]
    have h1 := oneWave_mu 0 1 _ band_unit2
    have hf : ∀ x : ℕ → ℂ × ℂ, (x 0).1 = 0 →
        bandForm (oneWave (some fun _ => ⟨1, 1, 1, 1 / 2, 0, 0⟩) 0) ⟨0, 1, 0⟩ x = 0 := by
      intro x hx
      have hk : ∀ G, (oneWave (some fun _ => ⟨1, 1, 1, 1 / 2, 0, 0⟩) 0).kpg G = _ := fun G => kData_xy 0
      unfold bandForm Spec.inner colOp transform
      rw [oneWave_N]
      simp only [hk, Finset.sum_range_one]
      simp [oneWave, crossC2t, ucrossT2c, HMat.mulVec, hermT, hx]
    rw [hf _ (by rw [h1])]
    unfold scaleByFreq
    split_ifs <;> simp

end Mpb.Velocity

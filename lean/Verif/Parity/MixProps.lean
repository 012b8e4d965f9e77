import Verif.Parity.Physical
import Verif.Parity.Props
import Verif.Invariance.Slope
import Verif.Invariance.Turn

/-!
# C63: the constraint does not split the modes of a symmetric structure
-/

namespace Mpb.Parity
open Mpb.Maxwell Mpb.Maxwell.Spec Mpb.Invariance Mpb.Invariance.Spec Spec

/-- A scalar structure symmetric under the mirror `z → -z`: the third lattice vector is along `z`, the others are normal to it, the wavevector is in the
mirror plane, and mirror images of grid points have the same permittivity. -/
structure MirrorZ (P : Problem) : Prop where
  lattice : P.Rm.c0.z = 0 ∧ P.Rm.c1.z = 0 ∧ P.Rm.c2.x = 0 ∧ P.Rm.c2.y = 0 ∧ P.Rm.det ≠ 0
  k : P.k.z = 0
  eps : ∃ f : ℕ → ℝ, (∀ r, 0 < f r) ∧ (∀ r, P.epsInv r = ⟨f r, f r, f r, 0, 0, 0⟩) ∧
    ∀ xy < P.nx * P.ny, ∀ z < P.nz, f (xy * P.nz + z) = f (xy * P.nz + (P.nz - z) % P.nz)
  mu : P.muInv = none

/-- Four layers along `z`, one of them with half the permittivity of the others. -/
noncomputable def fourLayers : Problem :=
  ⟨1, 1, 4, 1, M3.one, ⟨1, 0, 0⟩, fun r => if r = 0 then ⟨1, 1, 1, 0, 0, 0⟩ else ⟨1 / 2, 1 / 2, 1 / 2, 0, 0, 0⟩, none⟩

theorem fourLayers_mirror : MirrorZ fourLayers := by
  refine ⟨by simp [fourLayers, M3.one, M3.det], rfl, ⟨fun r => if r = 0 then 1 else 1 / 2, fun r => by beta_reduce; split <;> norm_num, fun r => ?_, ?_⟩, rfl⟩
  · by_cases h : r = 0 <;> simp [fourLayers, h]
  · intro xy hxy z hz
    change xy < 1 at hxy
    change z < 4 at hz
    obtain rfl : xy = 0 := by omega
    interval_cases z <;> simp [fourLayers]

theorem dft_four_pos {a b : ℕ} (ha : a < 4) (hb : b < 4) : dft 1 1 1 4 a b = Complex.I ^ (a * b) := by
  unfold dft
  have h : ∀ a, a < 4 → a / 4 / 1 = 0 ∧ a / 4 % 1 = 0 ∧ a % 4 = a := fun a ha => by omega
  rw [(h a ha).1, (h a ha).2.1, (h a ha).2.2, (h b hb).1, (h b hb).2.1, (h b hb).2.2]
  have hI : Complex.I ^ (a * b) = Complex.exp (((a * b : ℕ) : ℂ) * (Real.pi / 2 * Complex.I)) := by
    rw [Complex.exp_nat_mul, Complex.exp_pi_div_two_mul_I]
  rw [hI]
  congr 1
  push_cast
  ring

theorem dft_four_neg {a b : ℕ} (ha : a < 4) (hb : b < 4) : dft (-1) 1 1 4 a b = (-Complex.I) ^ (a * b) := by
  rw [← Complex.conj_conj (dft (-1) 1 1 4 a b), ← dft_conj, dft_four_pos hb ha, map_pow, Complex.conj_I, Nat.mul_comm]

theorem four_kpg {z : ℕ} (hz : z < 4) : fourLayers.data.kpg z = kData ⟨1, 0, -(harm 4 z : ℝ)⟩ := by
  have := data_kpg fourLayers (x := 0) (y := 0) (z := z) (by decide) (by decide) hz
  simp only [Nat.zero_mul, Nat.zero_add] at this
  rw [this]
  congr 1
  simp [Problem.wave, waveVec, fourLayers, Velocity.latticeGm, MpbData.inverse, M3.det, M3.one, M3.transpose, V3.smul, V3.cross, harm]
  ext <;> simp

theorem wave_m (g : ℝ) : (kData ⟨1, 0, g⟩).m.x * (kData ⟨1, 0, g⟩).kmag = g ∧ (kData ⟨1, 0, g⟩).m.y = 0 ∧ (kData ⟨1, 0, g⟩).m.z * (kData ⟨1, 0, g⟩).kmag = -1 := by
  have hp : (0 : ℝ) < 1 + g * g := by nlinarith [mul_self_nonneg g]
  have hs : Real.sqrt (1 + g * g) ≠ 0 := (Real.sqrt_pos.2 hp).ne'
  unfold kData
  dsimp only
  rw [if_neg (by nlinarith [mul_self_nonneg g]), if_neg (by norm_num)]
  simp [Maxwell.normalize, V3.cross]
  rw [show g * g + 1 = 1 + g * g by ring]
  constructor <;> field_simp

/-- The coefficients of the layers with the two planewaves next to the fourth. -/
theorem curl_entry {G : ℕ} (hG : G = 1 ∨ G = 3) :
    ((bandOp fourLayers.data (fun G' => if G' = 2 then (0, 1) else (0, 0)) G).2).re = if G = 1 then -1 / 8 else 3 / 8 := by
  have hG4 : G < 4 := by omega
  have hN : fourLayers.data.N = 4 := rfl
  have hu : crossT2c (fourLayers.data.kpg 2) 0 1 = ⟨-2, 0, 1⟩ := by
    rw [four_kpg (by omega)]
    obtain ⟨h1, h2, h3⟩ := wave_m (-(harm 4 2 : ℝ))
    ext <;> apply Complex.ext <;> simp [crossT2c, h1, h2, h3]
    norm_num [harm]
  have h1 : ∀ r < 4, transform fourLayers.data.Wf 4 (fun G' => crossT2c (fourLayers.data.kpg G') ((if G' = 2 then ((0 : ℂ), (1 : ℂ)) else (0, 0)).1)
      ((if G' = 2 then ((0 : ℂ), (1 : ℂ)) else (0, 0)).2)) r = V3.smul ((-Complex.I) ^ (r * 2)) ⟨-2, 0, 1⟩ := by
    intro r hr
    have h0 : ∀ k, crossT2c k 0 0 = ⟨0, 0, 0⟩ := fun k => by ext <;> apply Complex.ext <;> simp [crossT2c]
    have hW : fourLayers.data.Wf r 2 = (-Complex.I) ^ (r * 2) := dft_four_neg hr (by omega)
    unfold transform
    simp only [Finset.sum_range_succ, Finset.sum_range_zero]
    norm_num [h0, hu, hW]
    ext <;> simp
  unfold bandOp colOp
  rw [hN, transform_congr (b := fun r => (fourLayers.data.epsInv r).mulVec (V3.smul ((-Complex.I) ^ (r * 2)) ⟨-2, 0, 1⟩)) (fun r hr => by rw [h1 r hr])]
  have hb : transform fourLayers.data.Wb 4 (fun r => (fourLayers.data.epsInv r).mulVec (V3.smul ((-Complex.I) ^ (r * 2)) ⟨-2, 0, 1⟩)) G = ⟨-1, 0, 1 / 2⟩ := by
    have hW : ∀ r < 4, fourLayers.data.Wb G r = Complex.I ^ (G * r) := fun r hr => dft_four_pos hG4 hr
    have he : ∀ r, fourLayers.data.epsInv r = if r = 0 then ⟨1, 1, 1, 0, 0, 0⟩ else ⟨1 / 2, 1 / 2, 1 / 2, 0, 0, 0⟩ := fun _ => rfl
    unfold transform
    simp only [Finset.sum_range_succ, Finset.sum_range_zero, hW 0 (by omega), hW 1 (by omega), hW 2 (by omega), hW 3 (by omega), he]
    have i2 : Complex.I ^ 2 = -1 := Complex.I_sq
    have i3 : Complex.I ^ 3 = -Complex.I := by rw [pow_succ, i2]; ring
    have i4 : Complex.I ^ 4 = 1 := by rw [show 4 = 2 * 2 by rfl, pow_mul, i2]; norm_num
    have i6 : Complex.I ^ 6 = -1 := by rw [show 6 = 2 * 3 by rfl, pow_mul, i2]; norm_num
    have i9 : Complex.I ^ 9 = Complex.I := by rw [show 9 = 2 * 4 + 1 by rfl, pow_add, pow_mul, i2]; norm_num
    have n2 : (-Complex.I) ^ 2 = -1 := by rw [neg_pow, i2]; norm_num
    have n4 : (-Complex.I) ^ 4 = 1 := by rw [neg_pow, i4]; norm_num
    have n6 : (-Complex.I) ^ 6 = -1 := by rw [neg_pow, i6]; norm_num
    rcases hG with rfl | rfl <;> ext <;> apply Complex.ext <;> norm_num [HMat.mulVec, i2, i3, i4, i6, i9, n2, n4, n6]
  rw [hb, four_kpg hG4]
  obtain ⟨w1, w2, w3⟩ := wave_m (-(harm 4 G : ℝ))
  simp [crossC2t]
  rcases hG with rfl | rfl
  · norm_num [harm] at w1 w2 w3 ⊢
    nlinarith
  · norm_num [harm] at w1 w2 w3 ⊢
    nlinarith

/-- Without a permeability: a projection that maps modes to modes commutes with the operator. -/
theorem split_commutes (P : Problem) (hn : 0 < P.nfb) (hmu : P.muInv = none) (Q : Matrix (Fin (P.data.N * 2)) (Fin (P.data.N * 2)) ℂ) (proj : (ℕ → ℂ) → ℕ → ℂ)
    (hproj : ∀ X, firstOf (P.data.N * 2) (proj X) = Q.mulVec (firstOf (P.data.N * 2) X))
    (h : ∀ lam X, IsMode P.data lam X → (∀ a < P.data.N * 2, proj X a = 0) ∨ IsMode P.data lam (proj X)) :
    (curlOp P).mat * Q = Q * (curlOp P).mat := by
  have hid : ∀ x, (muOp P).mat.mulVec x = x := by
    intro x
    have := (muOp P).mulVec (padded x)
    rw [firstOf_padded] at this
    rw [this]
    have e : (muOp P).T (pairs (padded x)) = pairs (padded x) := by
      show bandMuinv P.data _ = _
      unfold bandMuinv
      rw [show P.data.muInv = none from hmu]
    rw [e, LinearEquiv.symm_apply_apply, firstOf_padded]
  have hpos : ∀ r < P.nx * P.ny * P.nz, Tensor.Spec.PosDef (invMu P r) := fun r _ => by
    rw [invMu, hmu]
    exact posDef_one
  obtain ⟨lam, X, hli, hX⟩ := (C105_bands P hn hpos).1
  have hf : ∀ i, ∃ mu : ℝ, (curlOp P).mat.mulVec (firstOf _ (X i)) = (mu : ℂ) • firstOf _ (X i) ∧
      (curlOp P).mat.mulVec (Q.mulVec (firstOf _ (X i))) = (mu : ℂ) • Q.mulVec (firstOf _ (X i)) := by
    intro i
    obtain ⟨mu, -, hm⟩ := hX i
    have h1 := ((isMode_matrix P hn mu (X i)).1 hm).2
    rw [hid, hid] at h1
    refine ⟨mu, h1, ?_⟩
    rw [← hproj]
    rcases h mu (X i) hm with h0 | h0
    · have : firstOf (P.data.N * 2) (proj (X i)) = 0 := by
        funext a
        exact h0 a a.2
      rw [this, Matrix.mulVec_zero, smul_zero]
    · have h1 := ((isMode_matrix P hn mu _).1 h0).2
      rw [hid, hid] at h1
      exact h1
  have hb : LinearIndependent ℂ (fun i => firstOf (P.data.N * 2) (X i)) := by
    rw [Fintype.linearIndependent_iff]
    intro c hc
    refine hli c fun a ha => ?_
    have := congrFun hc ⟨a, ha⟩
    simpa [firstOf, Finset.sum_apply] using this
  have hspan := hb.span_eq_top_of_card_eq_finrank' (by simp; rfl)
  refine Matrix.toLin'.injective (LinearMap.ext_on_range hspan fun i => ?_)
  obtain ⟨mu, h1, h2⟩ := hf i
  rw [Matrix.toLin'_apply, Matrix.toLin'_apply, ← Matrix.mulVec_mulVec, ← Matrix.mulVec_mulVec, h1, h2, Matrix.mulVec_smul]

/-- The mirror image of an amplitude of four planewaves. -/
def flip8 : Fin 8 → Fin 8 := ![0, 1, 6, 7, 4, 5, 2, 3]

/-- The even part of the amplitudes of four planewaves. -/
noncomputable def even8 : Matrix (Fin 8) (Fin 8) ℂ := Matrix.of fun i j =>
  (if j = i then 1 / 2 else 0) + (if i.1 % 2 = 0 then 1 else -1) * (if j = flip8 i then 1 / 2 else 0)

theorem even8_apply (x : Fin 8 → ℂ) (i : Fin 8) : even8.mulVec x i = 1 / 2 * x i + (if i.1 % 2 = 0 then 1 else -1) * (1 / 2 * x (flip8 i)) := by
  unfold even8
  simp [Matrix.mulVec, dotProduct, add_mul, Finset.sum_add_distrib, mul_assoc, ← Finset.mul_sum]

theorem even8_proj (X : ℕ → ℂ) : firstOf 8 (parityConstraint ⟨1, 1, 4⟩ evenZ 1 X) = even8.mulVec (firstOf 8 X) := by
  obtain ⟨e1, -⟩ := C14_z ⟨1, 1, 4⟩ evenZ 1 X
  have hpe : parityConstraint ⟨1, 1, 4⟩ evenZ 1 X = zparityConstraint ⟨1, 1, 4⟩ evenZ 1 X := by
    unfold parityConstraint; rw [if_neg (by decide), if_pos (by decide)]
  rw [hpe]
  funext i
  rw [even8_apply]
  have e2 := e1 (by decide) 0 (by omega)
  have e3 : ∀ G < 4, _ := e2
  have f0 := e3 0 (by omega)
  have f1 := e3 1 (by omega)
  have f2 := e3 2 (by omega)
  have f3 := e3 3 (by omega)
  simp [band1, part, scale, Spec.add, mirrorZ, flipZ] at f0 f1 f2 f3
  fin_cases i <;> simp [firstOf, flip8]
  · rw [f0.1]; ring
  · exact f0.2
  · rw [f1.1]; ring
  · rw [f1.2]; ring
  · rw [f2.1]; ring
  · exact f2.2
  · rw [f3.1]; ring
  · rw [f3.2]; ring

/-- **C63** refuted for the modes: a structure symmetric under the mirror, of scalar permittivity, has modes whose even part (as the constraint of run-zeven
takes it) is not a mode. -/
theorem C63_split_refuted : ¬ ∀ P : Problem, 0 < P.nfb → MirrorZ P → ∀ lam X, IsMode P.data lam X →
    (∀ a < P.data.N * 2, parityConstraint ⟨P.nx, P.ny, P.nz⟩ evenZ 1 X a = 0) ∨ IsMode P.data lam (parityConstraint ⟨P.nx, P.ny, P.nz⟩ evenZ 1 X) := by
  intro hall
  have h := hall fourLayers one_pos fourLayers_mirror
  have hcomm := split_commutes fourLayers one_pos rfl even8 (parityConstraint ⟨1, 1, 4⟩ evenZ 1) even8_proj h
  set C : Matrix (Fin 8) (Fin 8) ℂ := (curlOp fourLayers).mat with hC
  have hC' : C * even8 = even8 * C := hcomm
  have hent : ∀ i : Fin 8, i = 3 ∨ i = 7 → (C i 5).re = if i = 3 then -1 / 8 else 3 / 8 := by
    intro i hi
    have h1 := congrFun ((curlOp fourLayers).mulVec (fun a => if a = 5 then 1 else 0)) i
    have h2 : firstOf (fourLayers.data.N * 2) (fun a => if a = 5 then (1 : ℂ) else 0) = (Pi.single (5 : Fin 8) 1 : Fin 8 → ℂ) := by
      funext j
      have hj : ∀ j : Fin 8, (if j.1 = 5 then (1 : ℂ) else 0) = (Pi.single (5 : Fin 8) 1 : Fin 8 → ℂ) j := by
        intro j
        rw [Pi.single_apply]
        exact if_congr (by rw [Fin.ext_iff]; rfl) rfl rfl
      exact hj j
    have h3 : C.mulVec (Pi.single (5 : Fin 8) 1) i = C i 5 := by simp
    have h4 : C i 5 = pairs.symm (bandOp fourLayers.data (pairs (fun a => if a = 5 then (1 : ℂ) else 0))) i := by
      rw [← h3, ← h2]
      exact h1
    have h5 : pairs (fun a => if a = 5 then (1 : ℂ) else 0) = fun G' => if G' = 2 then ((0 : ℂ), (1 : ℂ)) else (0, 0) := by
      funext G
      show ((if G * 2 = 5 then (1 : ℂ) else 0), (if G * 2 + 1 = 5 then (1 : ℂ) else 0)) = _
      rw [if_neg (by omega)]
      by_cases hG : G = 2
      · rw [if_pos (by omega), if_pos hG]
      · rw [if_neg (by omega), if_neg hG]
    rw [h4, h5]
    rcases hi with rfl | rfl
    · exact curl_entry (Or.inl rfl)
    · exact (curl_entry (Or.inr rfl)).trans (by rw [if_neg (by norm_num), if_neg (by decide)])
  have h5 : even8.mulVec (Pi.single 5 1) = 0 := by
    funext i
    rw [even8_apply]
    fin_cases i <;> simp [flip8]
  have h6 : even8.mulVec (C.mulVec (Pi.single 5 1)) 3 = 0 := by
    rw [Matrix.mulVec_mulVec, ← hC', ← Matrix.mulVec_mulVec, h5, Matrix.mulVec_zero]
    rfl
  rw [even8_apply] at h6
  have h7 := congrArg Complex.re h6
  have e3 := hent 3 (Or.inl rfl)
  have e7 := hent 7 (Or.inr rfl)
  simp [flip8] at h7 e3 e7
  rw [e3, e7] at h7
  norm_num at h7

end Mpb.Parity

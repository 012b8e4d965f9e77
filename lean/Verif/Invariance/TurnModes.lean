import Verif.Invariance.Turn

/-! # Property C97: the modes of a magnetic crystal at zero wavevector do not turn with the crystal -/

namespace Mpb.Invariance
open Mpb.Maxwell Mpb.Maxwell.Spec Spec

/-- The inverse permeability: 1, with an xy component of 1/2 at one point and -1/2 at the other. -/
noncomputable def tilted (r : ℕ) : HMat := ⟨1, 1, 1, if r = 0 then 1 / 2 else -(1 / 2), 0, 0⟩

/-- Two grid points along `x` at zero wavevector. -/
noncomputable def along (R : M3 ℝ) : Problem := ⟨2, 1, 1, 1, R, 0, fun _ => ⟨1, 1, 1, 0, 0, 0⟩, some tilted⟩

/-- The lattice with `x` and `y` exchanged. -/
def swapped : M3 ℝ := ⟨⟨0, 1, 0⟩, ⟨1, 0, 0⟩, ⟨0, 0, 1⟩⟩

theorem dft_two (sgn : ℝ) (h : sgn = 1 ∨ sgn = -1) : dft sgn 2 1 1 0 0 = 1 ∧ dft sgn 2 1 1 0 1 = 1 ∧ dft sgn 2 1 1 1 0 = 1 ∧ dft sgn 2 1 1 1 1 = -1 := by
  refine ⟨?_, ?_, ?_, ?_⟩
  · simp [dft]
  · simp [dft]
  · simp [dft]
  · unfold dft
    rcases h with rfl | rfl
    · rw [← Complex.exp_pi_mul_I]
      congr 2
      push_cast
      simp
      ring
    · rw [show (-1 : ℂ) = (Complex.exp (Real.pi * Complex.I))⁻¹ by rw [Complex.exp_pi_mul_I]; norm_num, ← Complex.exp_neg]
      congr 1
      push_cast
      simp
      ring

theorem kpg_along : (along M3.one).data.kpg 0 = ⟨0, ⟨0, 0, 1⟩, ⟨0, 1, 0⟩⟩ ∧ (along M3.one).data.kpg 1 = ⟨1, ⟨0, 0, -1⟩, ⟨0, 1, 0⟩⟩ := by
  have g : Velocity.latticeGm M3.one = M3.one := by
    rw [latticeGm_eq]
    simp [M3.one, M3.det, V3.cross, V3.smul]
  have h0 : (along M3.one).wave 0 0 0 = ⟨0, 0, 0⟩ := by
    unfold Problem.wave along
    rw [g]
    ext <;> simp [waveVec, M3.one, harm, V3.smul]
  have h1 : (along M3.one).wave 1 0 0 = ⟨1, 0, 0⟩ := by
    unfold Problem.wave along
    rw [g]
    ext <;> simp [waveVec, M3.one, harm, V3.smul]
  constructor
  · have := data_kpg (along M3.one) (x := 0) (y := 0) (z := 0) (by decide) (by decide) (by decide)
    rw [h0] at this
    refine this.trans ?_
    simp [kData]
  · have := data_kpg (along M3.one) (x := 1) (y := 0) (z := 0) (by decide) (by decide) (by decide)
    rw [h1] at this
    refine this.trans ?_
    simp [kData, Maxwell.normalize, V3.cross]

theorem kpg_swapped : (along swapped).data.kpg 0 = ⟨0, ⟨0, 0, 1⟩, ⟨0, 1, 0⟩⟩ ∧ (along swapped).data.kpg 1 = ⟨1, ⟨0, 0, -1⟩, ⟨-1, 0, 0⟩⟩ := by
  have g : Velocity.latticeGm swapped = swapped := by
    rw [latticeGm_eq]
    simp [swapped, M3.det, V3.cross, V3.smul]
  have h0 : (along swapped).wave 0 0 0 = ⟨0, 0, 0⟩ := by
    unfold Problem.wave along
    rw [g]
    ext <;> simp [waveVec, swapped, harm, V3.smul]
  have h1 : (along swapped).wave 1 0 0 = ⟨0, 1, 0⟩ := by
    unfold Problem.wave along
    rw [g]
    ext <;> simp [waveVec, swapped, harm, V3.smul]
  constructor
  · have := data_kpg (along swapped) (x := 0) (y := 0) (z := 0) (by decide) (by decide) (by decide)
    rw [h0] at this
    refine this.trans ?_
    simp [kData]
  · have := data_kpg (along swapped) (x := 1) (y := 0) (z := 0) (by decide) (by decide) (by decide)
    rw [h1] at this
    refine this.trans ?_
    simp [kData, Maxwell.normalize, V3.cross]

/-- The operators of either problem in terms of the two planewaves. -/
theorem ops_along {R : M3 ℝ} (h0 : (along R).data.kpg 0 = ⟨0, ⟨0, 0, 1⟩, ⟨0, 1, 0⟩⟩) (x : ℕ → ℂ × ℂ) :
    (bandOp (along R).data x 0 = (0, 0)) ∧
    ((along R).data.kpg 1 = ⟨1, ⟨0, 0, -1⟩, ⟨0, 1, 0⟩⟩ → bandOp (along R).data x 1 = x 1 ∧ bandMu (along R).data tilted x 0 = x 0 ∧ bandMu (along R).data tilted x 1 = x 1) ∧
    ((along R).data.kpg 1 = ⟨1, ⟨0, 0, -1⟩, ⟨-1, 0, 0⟩⟩ → bandOp (along R).data x 1 = x 1 ∧ bandMu (along R).data tilted x 0 = ((x 0).1, (x 0).2 - (x 1).2 / 2) ∧
      bandMu (along R).data tilted x 1 = ((x 1).1, (x 1).2 - (x 0).2 / 2)) := by
  have hN : (along R).data.N = 2 := rfl
  have hf : (along R).data.Wf = dft (-1) 2 1 1 := rfl
  have hb : (along R).data.Wb = dft 1 2 1 1 := rfl
  have he : (along R).data.epsInv = fun _ => ⟨1, 1, 1, 0, 0, 0⟩ := rfl
  obtain ⟨p1, p2, p3, p4⟩ := dft_two 1 (Or.inl rfl)
  obtain ⟨q1, q2, q3, q4⟩ := dft_two (-1) (Or.inr rfl)
  refine ⟨?_, fun h1 => ⟨?_, ?_, ?_⟩, fun h1 => ⟨?_, ?_, ?_⟩⟩
  · refine Prod.ext ?_ ?_ <;> apply Complex.ext <;> simp [bandOp, colOp, hN, hf, hb, he, h0, crossC2t]
  all_goals
    simp only [bandOp, bandMu, colOp, hN, hf, hb, he, h0, h1, transform, Finset.sum_range_succ, Finset.sum_range_zero, p1, p2, p3, p4, q1, q2, q3, q4, tilted]
    refine Prod.ext ?_ ?_ <;> apply Complex.ext <;> simp [crossC2t, crossT2c, c2t, t2c, HMat.mulVec] <;> ring

theorem tilted_posDef (r : ℕ) : Tensor.Spec.PosDef (tilted r) := by
  intro v hv
  have hne : v 0 ≠ 0 ∨ v 1 ≠ 0 ∨ v 2 ≠ 0 := by
    by_contra hc
    push Not at hc
    apply hv
    funext i
    fin_cases i
    · exact hc.1
    · exact hc.2.1
    · exact hc.2.2
  have key : ∀ t : ℝ, t = 1 / 2 ∨ t = -(1 / 2) → 0 < (star v ⬝ᵥ (Tensor.Spec.toMatrix ⟨1, 1, 1, (t : ℂ), 0, 0⟩).mulVec v).re := by
    intro t ht
    have hform : (star v ⬝ᵥ (Tensor.Spec.toMatrix ⟨1, 1, 1, (t : ℂ), 0, 0⟩).mulVec v).re =
        Complex.normSq (v 0) / 2 + Complex.normSq (v 1) / 2 + Complex.normSq (v 2) + Complex.normSq (v 0 + (2 * t : ℝ) * v 1) / 2 +
          (1 - (2 * t) ^ 2) / 2 * Complex.normSq (v 1) := by
      simp [Tensor.Spec.toMatrix, Matrix.mulVec, dotProduct, Fin.sum_univ_three, Complex.normSq_apply]
      ring
    have hz : (1 - (2 * t) ^ 2) / 2 = 0 := by rcases ht with rfl | rfl <;> norm_num
    rw [hform, hz, zero_mul, add_zero]
    have h0 := Complex.normSq_nonneg (v 0)
    have h1 := Complex.normSq_nonneg (v 1)
    have h2 := Complex.normSq_nonneg (v 2)
    have h3 := Complex.normSq_nonneg (v 0 + (2 * t : ℝ) * v 1)
    rcases hne with h | h | h
    · have := Complex.normSq_pos.2 h; linarith
    · have := Complex.normSq_pos.2 h; linarith
    · have := Complex.normSq_pos.2 h; linarith
  unfold tilted
  split_ifs
  · have := key (1 / 2) (Or.inl rfl)
    push_cast at this
    exact this
  · have := key (-(1 / 2)) (Or.inr rfl)
    push_cast at this
    exact this

/-- C97, the full statement fails: two grid points with a positive definite permeability that has an xy component of opposite sign at the two
points, at zero wavevector, and the same crystal with the axes x and y exchanged.  The frequencies agree (`C97_frequencies`), but no
norm-keeping one-to-one linear map takes the modes of one to those of the other: of the constant field the code keeps only the components along
two fixed axes, and modes of frequencies 0 and 1 are orthogonal in the first orientation but not in the second. -/
theorem C97_rotation_refuted : ∃ (Q : Matrix (Fin 3) (Fin 3) ℝ) (P P' : Problem), Q.transpose * Q = 1 ∧ Rotated Q P P' ∧
    (∀ r, Tensor.Spec.PosDef (P.epsInv r)) ∧ (∀ mu, P.muInv = some mu → ∀ r, Tensor.Spec.PosDef (mu r)) ∧ ¬ SameModes P.data P'.data 1 := by
  refine ⟨!![0, 1, 0; 1, 0, 0; 0, 0, 1], along M3.one, along swapped, ?_, ⟨rfl, rfl, rfl, rfl, rfl, ?_, fun r _ => ?_, Or.inr ⟨_, _, rfl, rfl, fun r _ => ?_⟩⟩,
    fun r => posDef_one, fun mu hmu r => ?_, ?_⟩
  · ext i j
    rw [Matrix.mul_apply, Fin.sum_univ_three, Matrix.one_apply]
    fin_cases i <;> fin_cases j <;> simp
  · simp [rotated, Moment.app, along, swapped, M3.one]
  · unfold Moment.Turned along
    ext i j
    simp only [Matrix.mul_apply, Fin.sum_univ_three, Matrix.transpose_apply, Matrix.map_apply]
    fin_cases i <;> fin_cases j <;> simp [Tensor.Spec.toMatrix]
  · unfold Moment.Turned tilted
    ext i j
    simp only [Matrix.mul_apply, Fin.sum_univ_three, Matrix.transpose_apply, Matrix.map_apply]
    split_ifs <;> fin_cases i <;> fin_cases j <;> simp [Tensor.Spec.toMatrix]
  · obtain rfl : tilted = mu := Option.some.inj hmu
    exact tilted_posDef r
  · rintro ⟨-, U, hU, hmode⟩
    have hA := kpg_along
    have hB := kpg_swapped
    have nA : 0 < (along M3.one).data.nfb := Nat.one_pos
    have nB : 0 < (along swapped).data.nfb := Nat.one_pos
    have mxA : ∀ x, bandMaxwell (along M3.one).data x = bandMu (along M3.one).data tilted (bandOp (along M3.one).data (bandMu (along M3.one).data tilted x)) := fun _ => rfl
    have mxB : ∀ x, bandMaxwell (along swapped).data x = bandMu (along swapped).data tilted (bandOp (along swapped).data (bandMu (along swapped).data tilted x)) := fun _ => rfl
    have miA : ∀ x, bandMuinv (along M3.one).data x = bandMu (along M3.one).data tilted x := fun _ => rfl
    have miB : ∀ x, bandMuinv (along swapped).data x = bandMu (along swapped).data tilted x := fun _ => rfl
    have hNA : (along M3.one).data.N = 2 := rfl
    have hNB : (along swapped).data.N = 2 := rfl
    -- modes of the first problem
    have first : ∀ lam X, IsMode (along M3.one).data lam X → ((lam : ℂ) * X 0 = 0 ∧ (lam : ℂ) * X 1 = 0) ∧ X 2 = (lam : ℂ) * X 2 ∧ X 3 = (lam : ℂ) * X 3 := by
      intro lam X h
      rw [isMode_iff _ nA, hNA] at h
      have h0 := h.2 0 (by omega)
      have h1 := h.2 1 (by omega)
      rw [mxA, miA, ((ops_along hA.1 _).2.1 hA.2).2.1, ((ops_along hA.1 _).2.1 hA.2).2.1, (ops_along hA.1 _).1, band1, Prod.mk.injEq] at h0
      rw [mxA, miA, ((ops_along hA.1 _).2.1 hA.2).2.2, ((ops_along hA.1 _).2.1 hA.2).2.2, ((ops_along hA.1 _).2.1 hA.2).1,
        ((ops_along hA.1 _).2.1 hA.2).2.2, band1, Prod.mk.injEq] at h1
      exact ⟨⟨h0.1.symm, h0.2.symm⟩, h1.1, h1.2⟩
    -- two modes of the second
    have second : ∀ (lam : ℝ) (a b : ℂ), (b ≠ 0) → (lam = 0 ∧ b = a / 2 ∨ lam = 1 ∧ a = 0) → IsMode (along swapped).data lam (fun i => if i = 1 then a else if i = 3 then b else 0) := by
      intro lam a b hb0 hl
      rw [isMode_iff _ nB, hNB]
      refine ⟨⟨1, by omega, by rw [band1]; simp [hb0]⟩, fun G hG => ?_⟩
      have k := fun x => (ops_along hB.1 x).2.2 hB.2
      have k0 := fun x => (ops_along hB.1 x).1
      interval_cases G
      · rw [mxB, miB, (k _).2.1, (k _).2.1, k0, (k _).1, (k _).2.2, band1, band1]
        rcases hl with ⟨rfl, rfl⟩ | ⟨rfl, rfl⟩ <;> simp
      · rw [mxB, miB, (k _).2.2, (k _).2.2, k0, (k _).1, (k _).2.2, band1, band1]
        rcases hl with ⟨rfl, rfl⟩ | ⟨rfl, rfl⟩ <;> simp
    have z := second 0 2 1 one_ne_zero (Or.inl ⟨rfl, by norm_num⟩)
    have w := second 1 0 1 one_ne_zero (Or.inr ⟨rfl, rfl⟩)
    set Z : ℕ → ℂ := fun i => if i = 1 then 2 else if i = 3 then 1 else 0 with hZ
    set W : ℕ → ℂ := fun i => if i = 1 then 0 else if i = 3 then 1 else 0 with hW
    have zA : IsMode (along M3.one).data 0 (U.symm Z) := by rw [hmode, LinearEquiv.apply_symm_apply, mul_zero]; exact z
    have wA : IsMode (along M3.one).data 1 (U.symm W) := by rw [hmode, LinearEquiv.apply_symm_apply, mul_one]; exact w
    obtain ⟨-, z2, z3⟩ := first _ _ zA
    obtain ⟨⟨w0, w1⟩, -⟩ := first _ _ wA
    simp only [Complex.ofReal_zero, zero_mul, Complex.ofReal_one, one_mul] at z2 z3 w0 w1
    have n1 := hU (U.symm Z)
    have n2 := hU (U.symm W)
    have n3 := hU (U.symm Z + U.symm W)
    rw [map_add, LinearEquiv.apply_symm_apply, LinearEquiv.apply_symm_apply] at n3
    rw [LinearEquiv.apply_symm_apply] at n1 n2
    rw [hNA] at n1 n2 n3
    simp only [Finset.sum_range_succ, Finset.sum_range_zero, Pi.add_apply, z2, z3, w0, w1, add_zero, zero_add, map_zero] at n1 n2 n3
    simp [hZ, hW] at n1 n2 n3
    norm_num [Complex.normSq_apply] at n1 n2 n3
    linarith

end Mpb.Invariance

import Verif.Invariance.Slope

/-! # C97: the frequencies of a turned crystal, with a permeability and any wavevector -/

namespace Mpb.Invariance
open Mpb.Maxwell Mpb.Maxwell.Spec Spec MinMax
open Mpb.Moment (app Turned)
open Matrix
open scoped ComplexOrder

/-- Squared frequencies are not negative. -/
theorem modes_nonneg (P : Problem) (he : ∀ r < P.data.N, Tensor.Spec.PosDef (P.epsInv r)) (hm : ∀ r < P.data.N, Tensor.Spec.PosDef (invMu P r)) {lam : ℝ}
    {n : ℕ} (hn0 : 0 < n) (h : ModesUpTo P.data lam n) : 0 ≤ lam := by
  have hn : 0 < P.nfb := by
    by_contra hc
    obtain ⟨X, -, hX⟩ := h
    obtain ⟨mu, -, hmode⟩ := hX ⟨0, hn0⟩
    exact not_isMode _ (by show P.nfb = 0; omega) _ _ hmode
  obtain ⟨f, hf, hev⟩ := (modes_pencil P hn hm _ _).1 h
  obtain ⟨K, hK, -⟩ := data_isBasis P
  obtain ⟨mu, hle, he'⟩ := hev ⟨0, hn0⟩
  have p1 : 0 < form (muOp P).mat⁻¹ (f ⟨0, hn0⟩) := (Complex.lt_def.1 ((muOp_posDef P hm).inv.dotProduct_mulVec_pos (hf.ne_zero _))).1
  have p2 : 0 ≤ form (curlOp P).mat (f ⟨0, hn0⟩) := by
    rw [form_curl P hK]
    exact gridForm_nonneg _ _ (fun r hr v => herm_nonneg (he r hr) v) _
  have p3 : form (curlOp P).mat (f ⟨0, hn0⟩) = mu * form (muOp P).mat⁻¹ (f ⟨0, hn0⟩) := by
    unfold form
    rw [he', dotProduct_smul, smul_eq_mul, Complex.re_ofReal_mul]
  rw [p3] at p2
  exact (nonneg_of_mul_nonneg_left p2 p1).trans hle

theorem turn_turn (Q R : Matrix (Fin 3) (Fin 3) ℝ) (v : V3 ℂ) : turn Q (turn R v) = turn (Q * R) v := by
  ext <;> simp [turn, Matrix.mul_apply, Fin.sum_univ_three] <;> ring

theorem herm_turn {Q : Matrix (Fin 3) (Fin 3) ℝ} (h : Q.transpose * Q = 1) (u v : V3 ℂ) : herm (turn Q u) (turn Q v) = herm u v := by
  have e := orth_entries h
  have h00 := e 0 0; have h11 := e 1 1; have h22 := e 2 2; have h01 := e 0 1; have h02 := e 0 2; have h12 := e 1 2
  simp at h00 h11 h22 h01 h02 h12
  have c : ∀ {x y : ℝ}, x = y → (x : ℂ) = y := fun h => by rw [h]
  have k00 := c h00; have k11 := c h11; have k22 := c h22; have k01 := c h01; have k02 := c h02; have k12 := c h12
  push_cast at k00 k11 k22 k01 k02 k12
  simp only [herm, turn, map_add, map_mul, Complex.conj_ofReal]
  generalize (starRingEnd ℂ) u.x = a
  generalize (starRingEnd ℂ) u.y = b
  generalize (starRingEnd ℂ) u.z = d
  linear_combination (a * v.x) * k00 + (b * v.y) * k11 + (d * v.z) * k22 + (a * v.y + b * v.x) * k01 + (a * v.z + d * v.x) * k02 + (b * v.z + d * v.y) * k12

theorem herm_unit {d : ℝ} (hd : (d : ℂ) * d = 1) (u w : V3 ℂ) : herm (V3.smul (d : ℂ) u) (V3.smul (d : ℂ) w) = herm u w := by
  simp only [herm, V3.smul, map_mul, Complex.conj_ofReal]
  linear_combination ((starRingEnd ℂ) u.x * w.x + (starRingEnd ℂ) u.y * w.y + (starRingEnd ℂ) u.z * w.z) * hd

theorem posDef_one : Tensor.Spec.PosDef ⟨1, 1, 1, 0, 0, 0⟩ := by
  intro v hv
  have hform : (star v ⬝ᵥ (Tensor.Spec.toMatrix ⟨1, 1, 1, 0, 0, 0⟩).mulVec v).re = Complex.normSq (v 0) + Complex.normSq (v 1) + Complex.normSq (v 2) := by
    simp [Tensor.Spec.toMatrix, Matrix.mulVec, dotProduct, Fin.sum_univ_three, Complex.normSq_apply]
  rw [hform]
  by_contra hc
  push Not at hc
  have h0 := Complex.normSq_nonneg (v 0)
  have h1 := Complex.normSq_nonneg (v 1)
  have h2 := Complex.normSq_nonneg (v 2)
  apply hv
  funext i
  fin_cases i
  · exact Complex.normSq_eq_zero.1 (show Complex.normSq (v 0) = 0 by linarith)
  · exact Complex.normSq_eq_zero.1 (show Complex.normSq (v 1) = 0 by linarith)
  · exact Complex.normSq_eq_zero.1 (show Complex.normSq (v 2) = 0 by linarith)

/-- From the amplitudes of the turned problem to those of the first: field `B`, turned back, to `H` and to the amplitudes. -/
noncomputable def turnOp (Q : Matrix (Fin 3) (Fin 3) ℝ) (P P' : Problem) (hN : P'.data.N = P.data.N) : PairOp P.data.N where
  T x := ampPairs P (invMu P) (fun r => turn Q.transpose (plainField P'.data x r))
  linear x y s t G := by
    unfold ampPairs
    rw [show (fun r => (invMu P r).mulVec (turn Q.transpose (plainField P'.data (fun G => (s * (x G).1 + t * (y G).1, s * (x G).2 + t * (y G).2)) r))) =
      fun r => V3.smul s ((invMu P r).mulVec (turn Q.transpose (plainField P'.data x r))) +
        V3.smul t ((invMu P r).mulVec (turn Q.transpose (plainField P'.data y r))) from funext fun r => by
          rw [← mulVec_lin, ← turn_smul, ← turn_smul, ← turn_add]
          congr 2
          unfold plainField
          rw [← transform_lin]
          congr 1
          funext G
          ext <;> simp [cart] <;> ring,
      transform_lin, c2t_lin]
  loc x y h G _ := ampPairs_congr P _ (fun r _ => congrArg _ (transform_congr (fun j hj => by rw [h j (hN ▸ hj)]) r)) G

theorem posDef_turned {Q : Matrix (Fin 3) (Fin 3) ℝ} (hQ : Q.transpose * Q = 1) {e e' : HMat} (ht : Turned Q e e') (h : Tensor.Spec.PosDef e) :
    Tensor.Spec.PosDef e' := by
  have hQ' : Q * Q.transpose = 1 := mul_eq_one_comm.mp hQ
  intro v hv
  have hv' : (⟨v 0, v 1, v 2⟩ : V3 ℂ) ≠ ⟨0, 0, 0⟩ := by
    intro h0
    apply hv
    funext i
    fin_cases i
    · exact congrArg V3.x h0
    · exact congrArg V3.y h0
    · exact congrArg V3.z h0
  set w : V3 ℂ := ⟨v 0, v 1, v 2⟩ with hw
  have e1 : w = turn Q (turn Q.transpose w) := by rw [turn_turn, hQ', turn_one]
  have hne : turn Q.transpose w ≠ ⟨0, 0, 0⟩ := by
    intro h0
    apply hv'
    rw [e1, h0]
    ext <;> simp [turn]
  have h2 := herm_pos h hne
  rw [← herm_turn hQ, ← mulVec_turned hQ ht, ← e1, herm_eq_dot] at h2
  convert h2 using 4
  · funext i; fin_cases i <;> rfl
  · funext i; fin_cases i <;> rfl

theorem rotate_modes {Q : Matrix (Fin 3) (Fin 3) ℝ} (hQ : Q.transpose * Q = 1) {P P' : Problem} (h : Rotated Q P P')
    (hε : ∀ r < P.nx * P.ny * P.nz, Tensor.Spec.PosDef (P.epsInv r)) (hμ : ∀ r < P.nx * P.ny * P.nz, Tensor.Spec.PosDef (invMu P r)) {lam : ℝ} {n : ℕ}
    (hm : ModesUpTo P.data lam n) : ModesUpTo P'.data lam n := by
  have hQ' : Q * Q.transpose = 1 := mul_eq_one_comm.mp hQ
  obtain ⟨nx, ny, nz, nfb, Rm, kk, e', m'⟩ := P'
  obtain ⟨h1, h2, h3, h4, h5, h6, he, hmu⟩ := h
  dsimp only at h1 h2 h3 h4 h5 h6 he hmu
  subst h1 h2 h3 h4 h5 h6
  set P' : Problem := ⟨P.nx, P.ny, P.nz, P.nfb, rotated Q P.Rm, P.k, e', m'⟩ with hP'
  rcases Nat.eq_zero_or_pos n with rfl | hn0
  · exact ⟨fun i => i.elim0, fun _ _ i => i.elim0, fun i => i.elim0⟩
  have hlam := modes_nonneg P hε hμ hn0 hm
  have hn : 0 < P.nfb := by
    by_contra hc
    obtain ⟨X, -, hX⟩ := hm
    obtain ⟨mu, -, hmode⟩ := hX ⟨0, hn0⟩
    exact not_isMode _ (by show P.nfb = 0; omega) _ _ hmode
  have hmt : ∀ r < P.data.N, Turned Q (invMu P r) (invMu P' r) := by
    intro r hr
    rcases hmu with ⟨m1, m2⟩ | ⟨mu, mu', m1, m2, hmv⟩
    · have a1 : invMu P r = ⟨1, 1, 1, 0, 0, 0⟩ := by simp [invMu, m1]
      have a2 : invMu P' r = ⟨1, 1, 1, 0, 0, 0⟩ := by simp [invMu, hP', m2]
      rw [a1, a2]
      have e : Tensor.Spec.toMatrix ⟨1, 1, 1, 0, 0, 0⟩ = 1 := by
        ext i j
        fin_cases i <;> fin_cases j <;> simp [Tensor.Spec.toMatrix]
      unfold Turned
      rw [e, mul_one]
      have h1 := Matrix.map_mul (f := Complex.ofRealHom) (L := Q) (M := Q.transpose)
      rw [hQ', Matrix.map_one _ (map_zero _) (map_one _)] at h1
      exact h1
    · have a1 : invMu P r = mu r := by simp [invMu, m1]
      have a2 : invMu P' r = mu' r := by simp [invMu, hP', m2]
      rw [a1, a2]
      exact hmv r hr
  have pμ' : ∀ r < P'.data.N, Tensor.Spec.PosDef (invMu P' r) := fun r hr => posDef_turned hQ (hmt r hr) (hμ r hr)
  obtain ⟨f, hf, hev⟩ := (modes_pencil P hn hμ _ _).1 hm
  obtain ⟨K, hK, hw⟩ := data_isBasis P
  have hK' : ∀ G < P'.data.N, IsBasis (app Q (K G)) (P'.data.kpg G) := by
    intro G hG
    obtain ⟨x, hx, y, hy, z, hz, rfl⟩ := index3 (nx := P.nx) (ny := P.ny) (nz := P.nz) hG
    have e1 : P'.wave x y z = app Q (P.wave x y z) := by
      show waveVec _ _ _ _ _ = _
      rw [show P'.Rm = rotated Q P.Rm from rfl, latticeGm_rotated hQ]
      exact waveVec_rotated _ _ _ _
    rw [hw x hx y hy z hz, ← e1]
    exact data_kpg P' hx hy hz ▸ kData_isBasis _
  set M' : Matrix (Fin (P.data.N * 2)) (Fin (P.data.N * 2)) ℂ := (muOp P').mat with hM'
  have pM' : M'.PosDef := muOp_posDef P' pμ'
  have uM' := (Matrix.isUnit_iff_isUnit_det _).1 pM'.isUnit
  have pM : (muOp P).mat.PosDef := muOp_posDef P hμ
  have hdet : (Q.det : ℂ) * Q.det = 1 := by exact_mod_cast det_sq hQ
  refine (modes_pencil P' hn pμ' _ _).2 ?_
  refine count_conditions (m := P.data.N * 2) (curlOp_hermitian P') pM'.inv
    ((Submodule.span ℂ (Set.range f)).mkQ ∘ₗ (Matrix.toLin' (turnOp Q P P' rfl).mat) ∘ₗ (Matrix.toLin' M'⁻¹)) ?_ ?_
  · have := Submodule.finrank_quotient_add_finrank (Submodule.span ℂ (Set.range f))
    rw [finrank_span_eq_card hf] at this
    simpa using this.le
  · intro x hx
    set y : Fin (P.data.N * 2) → ℂ := M'⁻¹.mulVec x with hy
    have hMy : M'.mulVec y = x := by rw [hy, mulVec_mulVec, Matrix.mul_nonsing_inv _ uM', one_mulVec]
    set B := plainField P'.data (pairs (padded y)) with hB
    set b : ℕ → V3 ℂ := fun r => turn Q.transpose (B r) with hb
    have hBb : ∀ r, B r = turn Q (b r) := fun r => by rw [hb, turn_turn, hQ', turn_one]
    have hz : (turnOp Q P P' rfl).mat.mulVec y = firstOf (P.data.N * 2) (pairs.symm (ampPairs P (invMu P) b)) := by
      conv_lhs => rw [← firstOf_padded y]
      exact PairOp.mulVec _ _
    set m := (gridForm P.data.N (invMu P) b b).re with hm
    have hmm : (gridForm P.data.N (invMu P') B B).re = m := by
      rw [hm]
      unfold gridForm
      congr 2
      refine Finset.sum_congr rfl fun r hr => ?_
      rw [hBb, mulVec_turned hQ (hmt r (Finset.mem_range.1 hr)), herm_turn hQ]
    have em : form M'⁻¹ x = m := by
      have e1 : form (muOp P').mat y = (gridForm P.data.N (invMu P') B B).re := form_mu P' y
      rw [← hmm, ← e1]
      exact form_inv_apply pM' x
    have hspan : (turnOp Q P P' rfl).mat.mulVec y ∈ Submodule.span ℂ (Set.range f) := by
      rw [← Submodule.ker_mkQ (Submodule.span ℂ (Set.range f)), LinearMap.mem_ker]
      exact hx
    have hlow := low_span (curlOp_hermitian P) pM.inv f hev hspan
    rw [hz] at hlow
    have hmin := amp_minimal P hμ b
    rw [form_curl P hK] at hlow
    have hA : (gridForm P.data.N P.epsInv (curlField P.data K (ampPairs P (invMu P) b)) (curlField P.data K (ampPairs P (invMu P) b))).re ≤ lam * m := by
      have e : ∀ r < P.data.N, curlField P.data K (pairs (padded (firstOf (P.data.N * 2) (pairs.symm (ampPairs P (invMu P) b))))) r =
          curlField P.data K (ampPairs P (invMu P) b) r := by
        intro r _
        refine transform_congr (fun G hG => ?_) r
        rw [pairs_congr (fun a ha => padded_firstOf _ ha) hG, LinearEquiv.apply_symm_apply]
      rw [gridForm_congr e e] at hlow
      exact hlow.trans (mul_le_mul_of_nonneg_left hmin hlam)
    have ec : form (curlOp P').mat x = (gridForm P.data.N P.epsInv (curlField P.data K (ampPairs P (invMu P) b)) (curlField P.data K (ampPairs P (invMu P) b))).re := by
      refine (form_curl P' hK' x).trans ?_
      have e : ∀ r < P.data.N, curlField P'.data (fun G => app Q (K G)) (pairs (padded x)) r =
          V3.smul (Q.det : ℂ) (turn Q (curlField P.data K (ampPairs P (invMu P) b) r)) := by
        intro r hr
        have e1 : ∀ G < P.data.N, V3.cross (toC (app Q (K G))) (cart (P'.data.kpg G) (pairs (padded x) G)) =
            V3.smul (Q.det : ℂ) (turn Q (V3.cross (toC (K G)) (cart (P.data.kpg G) (ampPairs P (invMu P) b G)))) := by
          intro G hG
          have hx2 : pairs (padded x) G = ampPairs P' (invMu P') B G := by
            rw [amp_plain P' _ hG]
            have h1 : x = firstOf (P.data.N * 2) (pairs.symm ((muOp P').T (pairs (padded y)))) := by
              rw [← hMy]
              conv_lhs => rw [← firstOf_padded y]
              exact PairOp.mulVec (muOp P') (padded y)
            rw [h1, pairs_congr (N := P.data.N) (fun a ha => padded_firstOf _ ha) hG, LinearEquiv.apply_symm_apply]
          have e2 : transform P'.data.Wb P'.data.N (fun r => (invMu P' r).mulVec (B r)) G =
              turn Q (transform P.data.Wb P.data.N (fun r => (invMu P r).mulVec (b r)) G) := by
            rw [← turn_transform]
            exact transform_congr (fun r hr => by rw [hBb, mulVec_turned hQ (hmt r hr)]) G
          rw [hx2]
          unfold ampPairs
          rw [cross_c2t (hK' G hG), cross_c2t (hK G hG), e2, cross_turn hQ, turn_smul, show P'.data.N = P.data.N from rfl]
          ext <;> simp only [V3.smul] <;> ring
        refine (transform_congr e1 r).trans ?_
        show transform P.data.Wf P.data.N _ r = _
        unfold curlField
        rw [← turn_transform]
        unfold transform
        ext <;> simp only [V3.smul, Finset.mul_sum] <;> exact Finset.sum_congr rfl fun j _ => by ring
      refine congrArg Complex.re ((gridForm_congr e e).trans ?_)
      unfold gridForm
      congr 1
      refine Finset.sum_congr rfl fun r hr => ?_
      rw [mulVec_smul, mulVec_turned hQ (he r (Finset.mem_range.1 hr))]
      exact (herm_unit hdet _ _).trans (herm_turn hQ _ _)
    rw [em]
    exact ec.le.trans hA

/-- Turning back. -/
theorem rotated_back {Q : Matrix (Fin 3) (Fin 3) ℝ} (hQ : Q.transpose * Q = 1) {P P' : Problem} (h : Rotated Q P P') : Rotated Q.transpose P' P := by
  have ht : ∀ {e e' : HMat}, Turned Q e e' → Turned Q.transpose e' e := by
    intro e e' h
    unfold Turned at *
    have h1 := Matrix.map_mul (f := Complex.ofRealHom) (L := Q.transpose) (M := Q)
    rw [hQ, Matrix.map_one _ (map_zero _) (map_one _)] at h1
    have h2 : (1 : Matrix (Fin 3) (Fin 3) ℂ) = Q.transpose.map (fun x : ℝ => (x : ℂ)) * Q.map (fun x : ℝ => (x : ℂ)) := h1
    have h3 : (Q.transpose.map (fun x : ℝ => (x : ℂ))).transpose = Q.map (fun x : ℝ => (x : ℂ)) := rfl
    have h4 : (Q.map (fun x : ℝ => (x : ℂ))).transpose = Q.transpose.map (fun x : ℝ => (x : ℂ)) := rfl
    rw [h3, h, h4, Matrix.mul_assoc, Matrix.mul_assoc, ← h2, Matrix.mul_one, ← Matrix.mul_assoc, ← h2, Matrix.one_mul]
  have ha : ∀ v : V3 ℝ, app Q.transpose (app Q v) = v := by
    intro v
    have e := orth_entries hQ
    have h00 := e 0 0; have h11 := e 1 1; have h22 := e 2 2; have h01 := e 0 1; have h02 := e 0 2; have h12 := e 1 2
    simp at h00 h11 h22 h01 h02 h12
    ext <;> simp only [app, Matrix.transpose_apply]
    · linear_combination v.x * h00 + v.y * h01 + v.z * h02
    · linear_combination v.x * h01 + v.y * h11 + v.z * h12
    · linear_combination v.x * h02 + v.y * h12 + v.z * h22
  refine ⟨h.nx.symm, h.ny.symm, h.nz.symm, h.nfb.symm, h.k.symm, ?_, fun r hr => ht (h.eps r ?_), ?_⟩
  · rw [h.lattice]
    simp only [rotated, ha]
  · rwa [h.nx, h.ny, h.nz] at hr
  · rw [h.nx, h.ny, h.nz]
    rcases h.mu with ⟨m1, m2⟩ | ⟨mu, mu', m1, m2, hmv⟩
    · exact Or.inl ⟨m2, m1⟩
    · exact Or.inr ⟨mu', mu, m2, m1, fun r hr => ht (hmv r hr)⟩

/-- C97, the frequencies, without any exception: for every grid, lattice, wavevector, every positive definite permittivity and permeability,
and every orthogonal matrix, the structure turned or reflected as a whole has as many linearly independent modes up to any frequency as the
first one, that is the same frequencies with the same multiplicities. -/
theorem C97_frequencies {Q : Matrix (Fin 3) (Fin 3) ℝ} (hQ : Q.transpose * Q = 1) {P P' : Problem} (h : Rotated Q P P')
    (hε : ∀ r < P.nx * P.ny * P.nz, Tensor.Spec.PosDef (P.epsInv r))
    (hμ : ∀ mu, P.muInv = some mu → ∀ r < P.nx * P.ny * P.nz, Tensor.Spec.PosDef (mu r)) (lam : ℝ) (n : ℕ) :
    ModesUpTo P'.data lam n ↔ ModesUpTo P.data lam n := by
  have hμ' : ∀ r < P.nx * P.ny * P.nz, Tensor.Spec.PosDef (invMu P r) := by
    intro r hr
    cases hm : P.muInv with
    | none =>
      rw [show invMu P r = ⟨1, 1, 1, 0, 0, 0⟩ by simp [invMu, hm]]
      exact posDef_one
    | some mu =>
      rw [show invMu P r = mu r by simp [invMu, hm]]
      exact hμ mu hm r hr
  have hQ' : Q.transpose.transpose * Q.transpose = 1 := by
    rw [Matrix.transpose_transpose]
    exact mul_eq_one_comm.mp hQ
  refine ⟨rotate_modes hQ' (rotated_back hQ h) ?_ ?_, rotate_modes hQ h hε hμ'⟩
  · rw [h.nx, h.ny, h.nz]
    exact fun r hr => posDef_turned hQ (h.eps r hr) (hε r hr)
  · rw [h.nx, h.ny, h.nz]
    intro r hr
    rcases h.mu with ⟨m1, m2⟩ | ⟨mu, mu', m1, m2, hmv⟩
    · rw [show invMu P' r = invMu P r by simp [invMu, m1, m2]]
      exact hμ' r hr
    · rw [show invMu P' r = mu' r by simp [invMu, m2]]
      exact posDef_turned hQ (hmv r hr) (hμ mu m1 r hr)

/-- Non-vacuity: a quarter turn about the third axis of a cell with different constants along the three axes and a permeability, at the
wavevector zero, where one planewave has wave vector zero. -/
example : (!![0, -1, 0; 1, 0, 0; 0, 0, 1] : Matrix (Fin 3) (Fin 3) ℝ).transpose * !![0, -1, 0; 1, 0, 0; 0, 0, 1] = 1 ∧
    Rotated !![0, -1, 0; 1, 0, 0; 0, 0, 1]
      ⟨4, 2, 1, 1, ⟨⟨1, 0, 0⟩, ⟨0, 2, 0⟩, ⟨0, 0, 1⟩⟩, ⟨0, 0, 0⟩, fun _ => ⟨1, 2, 3, 0, 0, 0⟩, some fun _ => ⟨1, 2, 1, 0, 0, 0⟩⟩
      ⟨4, 2, 1, 1, ⟨⟨0, 1, 0⟩, ⟨-2, 0, 0⟩, ⟨0, 0, 1⟩⟩, ⟨0, 0, 0⟩, fun _ => ⟨2, 1, 3, 0, 0, 0⟩, some fun _ => ⟨2, 1, 1, 0, 0, 0⟩⟩ ∧
    Tensor.Spec.PosDef ⟨1, 2, 3, 0, 0, 0⟩ ∧ Tensor.Spec.PosDef ⟨1, 2, 1, 0, 0, 0⟩ := by
  have pd : ∀ a b c : ℝ, 0 < a → 0 < b → 0 < c → Tensor.Spec.PosDef ⟨a, b, c, 0, 0, 0⟩ := by
    intro a b c ha hb hc v hv
    have hform : (star v ⬝ᵥ (Tensor.Spec.toMatrix ⟨a, b, c, 0, 0, 0⟩).mulVec v).re =
        a * Complex.normSq (v 0) + b * Complex.normSq (v 1) + c * Complex.normSq (v 2) := by
      simp [Tensor.Spec.toMatrix, Matrix.mulVec, dotProduct, Fin.sum_univ_three, Complex.normSq_apply]
      ring
    rw [hform]
    have h0 := Complex.normSq_nonneg (v 0)
    have h1 := Complex.normSq_nonneg (v 1)
    have h2 := Complex.normSq_nonneg (v 2)
    by_contra hh
    push Not at hh
    have m0 := mul_nonneg ha.le h0
    have m1 := mul_nonneg hb.le h1
    have m2 := mul_nonneg hc.le h2
    have e : ∀ {a x : ℝ}, 0 < a → a * x = 0 → x = 0 := fun ha h => (mul_eq_zero.1 h).resolve_left ha.ne'
    apply hv
    funext i
    fin_cases i
    · exact Complex.normSq_eq_zero.1 (show Complex.normSq (v 0) = 0 from e ha (by linarith))
    · exact Complex.normSq_eq_zero.1 (show Complex.normSq (v 1) = 0 from e hb (by linarith))
    · exact Complex.normSq_eq_zero.1 (show Complex.normSq (v 2) = 0 from e hc (by linarith))
  have ht : ∀ a b c : ℝ, Turned !![0, -1, 0; 1, 0, 0; 0, 0, 1] ⟨a, b, c, 0, 0, 0⟩ ⟨b, a, c, 0, 0, 0⟩ := by
    intro a b c
    unfold Turned
    ext i j
    simp only [Matrix.mul_apply, Fin.sum_univ_three, Matrix.transpose_apply, Matrix.map_apply]
    fin_cases i <;> fin_cases j <;> simp [Tensor.Spec.toMatrix]
  refine ⟨?_, ⟨rfl, rfl, rfl, rfl, rfl, ?_, fun r _ => ht 1 2 3, Or.inr ⟨_, _, rfl, rfl, fun r _ => ht 1 2 1⟩⟩, pd 1 2 3 ?_ ?_ ?_, pd 1 2 1 ?_ ?_ ?_⟩
  · ext i j
    rw [Matrix.mul_apply, Fin.sum_univ_three, Matrix.one_apply]
    fin_cases i <;> fin_cases j <;> simp
  · simp [rotated, app]
  all_goals norm_num

end Mpb.Invariance

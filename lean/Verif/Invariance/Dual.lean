import Verif.Invariance.DualSpec
import Verif.Invariance.Monotone
import Verif.Tensor.GridProps

/-! # C117: exchanging permittivity and permeability leaves the frequencies unchanged -/

namespace Mpb.Invariance
open Mpb.Maxwell Mpb.Maxwell.Spec Spec MinMax
open Matrix
open scoped ComplexOrder

/-! ### Matrices -/

section matrices
variable {m n : ℕ} {R E M : Matrix (Fin m) (Fin m) ℂ}

/-- A vector in the range of a skew matrix whose image under a positive definite matrix is in the kernel is zero. -/
theorem range_kernel (hR : Rᴴ = -R) (hE : E.PosDef) {v w : Fin m → ℂ} (hv : v = R.mulVec w) (h : R.mulVec (E.mulVec v) = 0) : v = 0 := by
  by_contra h0
  have h1 := hE.dotProduct_mulVec_pos h0
  have h2 : star v ⬝ᵥ E.mulVec v = 0 := by
    conv_lhs => rw [hv]
    rw [star_mulVec, ← dotProduct_mulVec, hR, neg_mulVec, ← hv, h, neg_zero, dotProduct_zero]
  rw [h2] at h1
  exact lt_irrefl _ h1

theorem quad_kernel (hR : Rᴴ = -R) (hE : E.PosDef) {w : Fin m → ℂ} (h : R.mulVec (E.mulVec (R.mulVec w)) = 0) : R.mulVec w = 0 :=
  range_kernel hR hE rfl h

/-- Eigenvectors of `-R E R M` give as many independent eigenvectors of `-R M R E` for the same eigenvalues. -/
theorem dual_count (hR : Rᴴ = -R) (hE : E.PosDef) (hM : M.PosDef) (f : Fin n → Fin m → ℂ) (hf : LinearIndependent ℂ f) (mu : Fin n → ℝ)
    (hev : ∀ i, -R.mulVec (E.mulVec (R.mulVec (M.mulVec (f i)))) = (mu i : ℂ) • f i) :
    ∃ f' : Fin n → Fin m → ℂ, LinearIndependent ℂ f' ∧ ∀ i, -R.mulVec (M.mulVec (R.mulVec (E.mulVec (f' i)))) = (mu i : ℂ) • f' i := by
  have uE := (Matrix.isUnit_iff_isUnit_det _).1 hE.isUnit
  have uM := (Matrix.isUnit_iff_isUnit_det _).1 hM.isUnit
  have cE : ∀ x, E.mulVec (E⁻¹.mulVec x) = x := fun x => by rw [mulVec_mulVec, Matrix.mul_nonsing_inv _ uE, one_mulVec]
  have iM : ∀ x, M.mulVec x = 0 → x = 0 := fun x h => by
    have := congrArg M⁻¹.mulVec h
    rwa [mulVec_mulVec, Matrix.nonsing_inv_mul _ uM, one_mulVec, mulVec_zero] at this
  have iE : ∀ x, E⁻¹.mulVec x = 0 → x = 0 := fun x h => by
    have := congrArg E.mulVec h
    rwa [cE, mulVec_zero] at this
  -- modes of frequency zero are those with vanishing curl, the others are in the range of the curl
  have hz : ∀ i, mu i = 0 → R.mulVec (M.mulVec (f i)) = 0 := by
    intro i h0
    have := hev i
    rw [h0, Complex.ofReal_zero, zero_smul, neg_eq_zero] at this
    exact quad_kernel hR hE this
  have hr : ∀ i, mu i ≠ 0 → f i = R.mulVec (-((mu i : ℂ)⁻¹) • E.mulVec (R.mulVec (M.mulVec (f i)))) := by
    intro i h0
    rw [Matrix.mulVec_smul, neg_smul, ← smul_neg, hev i, smul_smul, inv_mul_cancel₀ (by exact_mod_cast h0), one_smul]
  let g : Fin n → Fin m → ℂ := fun i => if mu i = 0 then E⁻¹.mulVec (M.mulVec (f i)) else R.mulVec (M.mulVec (f i))
  refine ⟨g, ?_, fun i => ?_⟩
  · rw [Fintype.linearIndependent_iff]
    intro c hc
    set x0 := ∑ i, (if mu i = 0 then c i else 0) • f i with hx0
    set x1 := ∑ i, (if mu i = 0 then 0 else c i) • f i with hx1
    have hsum : E⁻¹.mulVec (M.mulVec x0) + R.mulVec (M.mulVec x1) = 0 := by
      rw [← hc, hx0, hx1]
      simp only [mulVec_sum, Matrix.mulVec_smul]
      rw [← Finset.sum_add_distrib]
      refine Finset.sum_congr rfl fun i _ => ?_
      by_cases h0 : mu i = 0
      · simp [g, h0]
      · simp [g, h0]
    have hk0 : R.mulVec (M.mulVec x0) = 0 := by
      rw [hx0]
      simp only [mulVec_sum, Matrix.mulVec_smul]
      refine Finset.sum_eq_zero fun i _ => ?_
      by_cases h0 : mu i = 0
      · rw [hz i h0, smul_zero]
      · rw [if_neg h0, zero_smul]
    have hr1 : ∃ w, x1 = R.mulVec w := by
      refine ⟨∑ i, (if mu i = 0 then 0 else c i) • (-((mu i : ℂ)⁻¹) • E.mulVec (R.mulVec (M.mulVec (f i)))), ?_⟩
      rw [hx1, mulVec_sum]
      refine Finset.sum_congr rfl fun i _ => ?_
      rw [Matrix.mulVec_smul]
      by_cases h0 : mu i = 0
      · rw [if_pos h0, zero_smul, zero_smul]
      · rw [← hr i h0]
    have h1 : R.mulVec (M.mulVec x1) = 0 := by
      refine range_kernel hR hE (w := M.mulVec x1) rfl ?_
      have h2 : R.mulVec (M.mulVec x1) = -E⁻¹.mulVec (M.mulVec x0) := by
        rw [eq_neg_iff_add_eq_zero, add_comm]
        exact hsum
      rw [h2, mulVec_neg, cE, mulVec_neg, hk0, neg_zero]
    have e0 : x0 = 0 := by
      rw [h1, add_zero] at hsum
      exact iM _ (iE _ hsum)
    obtain ⟨w, hw⟩ := hr1
    have e1 : x1 = 0 := range_kernel hR hM hw h1
    have hall : ∑ i, c i • f i = 0 := by
      have : ∑ i, c i • f i = x0 + x1 := by
        rw [hx0, hx1, ← Finset.sum_add_distrib]
        refine Finset.sum_congr rfl fun i _ => ?_
        by_cases h0 : mu i = 0
        · simp [h0]
        · simp [h0]
      rw [this, e0, e1, add_zero]
    exact Fintype.linearIndependent_iff.1 hf c hall
  · by_cases h0 : mu i = 0
    · have : g i = E⁻¹.mulVec (M.mulVec (f i)) := if_pos h0
      rw [this, cE, hz i h0, h0]
      simp
    · have : g i = R.mulVec (M.mulVec (f i)) := if_neg h0
      rw [this, ← Matrix.mulVec_smul, ← Matrix.mulVec_smul, ← hev i]
      simp only [mulVec_neg]

end matrices

/-! ### The curl as a matrix -/

/-- The curl of a transverse field in the transverse basis (without the factor `i`). -/
noncomputable def curlT (d : OpData) (x : ℕ → ℂ × ℂ) (G : ℕ) : ℂ × ℂ := (-((d.kpg G).kmag : ℂ) * (x G).2, ((d.kpg G).kmag : ℂ) * (x G).1)

noncomputable def curlTOp (P : Problem) : PairOp P.data.N where
  T := curlT P.data
  linear x y s t G := by
    refine Prod.ext ?_ ?_ <;> simp [curlT] <;> ring
  loc x y h G hG := by unfold curlT; rw [h G hG]

theorem crossT2c_turn (k : KData) (a b : ℂ) : crossT2c k a b = t2c k (-(k.kmag : ℂ) * b) ((k.kmag : ℂ) * a) := by
  ext <;> apply Complex.ext <;> simp [crossT2c, t2c] <;> ring

theorem crossC2t_turn (k : KData) (a : V3 ℂ) (s : ℝ) :
    crossC2t k a (-s) = (-(-(k.kmag : ℂ) * (c2t k a s).2), -((k.kmag : ℂ) * (c2t k a s).1)) := by
  refine Prod.ext ?_ ?_ <;> apply Complex.ext <;> simp [crossC2t, c2t] <;> ring

theorem bandOp_turn (d : OpData) (x : ℕ → ℂ × ℂ) (G : ℕ) : bandOp d x G = -curlT d (bandMu d d.epsInv (curlT d x)) G := by
  unfold bandOp bandMu colOp curlT
  simp only [crossT2c_turn]
  rw [show (-1 / (d.N : ℝ)) = -(1 / (d.N : ℝ)) by ring, crossC2t_turn]
  rfl

theorem turn_skew (P : Problem) : ((curlTOp P).mat)ᴴ = -(curlTOp P).mat := by
  have key : ∀ i j, (curlTOp P).mat i j = star (Pi.single i 1 : Fin (P.data.N * 2) → ℂ) ⬝ᵥ (curlTOp P).mat.mulVec (Pi.single j 1) := by
    intro i j
    rw [Matrix.mulVec_single_one]
    simp [dotProduct, Pi.single_apply]
  have sk : ∀ x y, inner P.data.N x (curlT P.data y) = -(starRingEnd ℂ) (inner P.data.N y (curlT P.data x)) := by
    intro x y
    unfold Spec.inner
    rw [map_sum, ← Finset.sum_neg_distrib]
    refine Finset.sum_congr rfl fun G _ => ?_
    apply Complex.ext <;> simp [hermT, curlT] <;> ring
  ext i j
  rw [conjTranspose_apply, Matrix.neg_apply, key, key]
  have hs : ∀ x : Fin (P.data.N * 2) → ℂ, x = firstOf (P.data.N * 2) (padded x) := fun x => (firstOf_padded x).symm
  rw [hs (Pi.single i 1), hs (Pi.single j 1), PairOp.dot, PairOp.dot]
  change star (inner P.data.N _ (curlT P.data _)) = -inner P.data.N _ (curlT P.data _)
  rw [sk (pairs (padded (Pi.single i 1)))]
  simp

theorem bandMu_congr (d : OpData) {M M' : ℕ → HMat} (h : ∀ r < d.N, M r = M' r) (x : ℕ → ℂ × ℂ) (G : ℕ) : bandMu d M x G = bandMu d M' x G := by
  unfold bandMu colOp
  rw [transform_congr fun r hr => by rw [h r hr]]

/-- The second problem written on the grid of the first. -/
def dualOf (P : Problem) (e : ℕ → HMat) (m : Option (ℕ → HMat)) : Problem := ⟨P.nx, P.ny, P.nz, P.nfb, P.Rm, P.k, e, m⟩

theorem curl_dualOf (P : Problem) (e : ℕ → HMat) (m : Option (ℕ → HMat)) (h : ∀ r < P.data.N, invMu (dualOf P e m) r = P.epsInv r) (v : Fin (P.data.N * 2) → ℂ) :
    (curlOp P).mat.mulVec v =
      -(curlTOp P).mat.mulVec (Matrix.mulVec (m := Fin (P.data.N * 2)) (n := Fin (P.data.N * 2)) (muOp (dualOf P e m)).mat ((curlTOp P).mat.mulVec v)) := by
  have e0 : v = firstOf (P.data.N * 2) (padded v) := (firstOf_padded v).symm
  rw [e0, PairOp.mulVec, PairOp.mulVec]
  have e1 : Matrix.mulVec (m := Fin (P.data.N * 2)) (n := Fin (P.data.N * 2)) (muOp (dualOf P e m)).mat
      (firstOf (P.data.N * 2) (pairs.symm ((curlTOp P).T (pairs (padded v))))) =
      firstOf (P.data.N * 2) (pairs.symm ((muOp (dualOf P e m)).T ((curlTOp P).T (pairs (padded v))))) := by
    have := (muOp (dualOf P e m)).mulVec (pairs.symm ((curlTOp P).T (pairs (padded v))))
    rw [LinearEquiv.apply_symm_apply] at this
    exact this
  rw [e1, PairOp.mulVec, LinearEquiv.apply_symm_apply]
  have e2 : ∀ X : ℕ → ℂ, -firstOf (P.data.N * 2) X = firstOf (P.data.N * 2) (-X) := fun X => rfl
  rw [e2, ← map_neg]
  funext i
  refine symm_congr (N := P.data.N) (fun G hG => ?_) i.2
  have h1 : ∀ G < P.data.N, (muOp (dualOf P e m)).T ((curlTOp P).T (pairs (padded v))) G = bandMu P.data P.epsInv ((curlTOp P).T (pairs (padded v))) G := by
    intro G hG
    refine (bandMuinv_eq (dualOf P e m) _ hG).trans ?_
    exact bandMu_congr P.data h _ G
  change bandOp P.data _ G = (-(curlTOp P).T _) G
  rw [bandOp_turn]
  change -curlT P.data _ G = -curlT P.data _ G
  unfold curlT
  rw [h1 G hG]
  rfl

/-- One direction. -/
theorem exchanged_up {P P' : Problem} (h : Exchanged P P') (hp : Passive P) (lam : ℝ) (n : ℕ) (hm : ModesUpTo P.data lam n) : ModesUpTo P'.data lam n := by
  obtain ⟨nx, ny, nz, nfb, Rm, kk, e', m'⟩ := P'
  obtain ⟨h1, h2, h3, h4, h5, h6, he, hmu⟩ := h
  dsimp only at h1 h2 h3 h4 h5 h6 he
  subst h1 h2 h3 h4 h5 h6
  set P' : Problem := dualOf P e' m' with hP'
  change ModesUpTo P'.data lam n
  obtain ⟨X, hli, hX⟩ := hm
  rcases Nat.eq_zero_or_pos n with rfl | hn0
  · exact ⟨X, fun _ _ i => i.elim0, fun i => i.elim0⟩
  have hn : 0 < P.nfb := by
    by_contra hc
    obtain ⟨mu, -, hmode⟩ := hX ⟨0, hn0⟩
    exact not_isMode _ (by show P.nfb = 0; omega) _ _ hmode
  set M := (muOp P).mat with hM
  set E : Matrix (Fin (P.data.N * 2)) (Fin (P.data.N * 2)) ℂ := (muOp P').mat with hE
  set R := (curlTOp P).mat with hR
  have pM : M.PosDef := muOp_posDef P fun r hr => (hp r hr).2
  have pE : E.PosDef := muOp_posDef P' fun r hr => by rw [show invMu P' r = P.epsInv r from hmu r hr]; exact (hp r hr).1
  have sR : Rᴴ = -R := turn_skew P
  have uM := (Matrix.isUnit_iff_isUnit_det _).1 pM.isUnit
  have iM : ∀ x, M⁻¹.mulVec (M.mulVec x) = x := fun x => by rw [mulVec_mulVec, Matrix.nonsing_inv_mul _ uM, one_mulVec]
  have c1 : ∀ v, (curlOp P).mat.mulVec v = -R.mulVec (E.mulVec (R.mulVec v)) := curl_dualOf P e' m' hmu
  have c2 : ∀ v : Fin (P.data.N * 2) → ℂ, Matrix.mulVec (m := Fin (P.data.N * 2)) (n := Fin (P.data.N * 2)) (curlOp P').mat v = -R.mulVec (M.mulVec (R.mulVec v)) :=
    curl_dualOf P' P.epsInv P.muInv (fun r hr => (he r hr).symm)
  choose mu hmu1 hmode using hX
  obtain ⟨f', hf', hev'⟩ := dual_count sR pE pM (fun i => firstOf (P.data.N * 2) (X i)) (by
      rw [Fintype.linearIndependent_iff]
      intro c hc i
      refine hli c (fun a ha => ?_) i
      have := congrFun hc ⟨a, ha⟩
      rw [Finset.sum_apply] at this
      exact this) mu (fun i => by
      have h2 := ((isMode_matrix P hn (mu i) (X i)).1 (hmode i)).2
      have h3 := congrArg M⁻¹.mulVec h2
      rw [Matrix.mulVec_smul, iM, iM, c1] at h3
      exact h3)
  refine ⟨fun i => padded (f' i), fun c hc i => ?_, fun i => ⟨mu i, hmu1 i, (isMode_matrix P' hn (mu i) _).2 ?_⟩⟩
  · refine Fintype.linearIndependent_iff.1 hf' c ?_ i
    funext a
    have := hc a a.2
    rw [Finset.sum_apply, Pi.zero_apply, ← this]
    refine Finset.sum_congr rfl fun i _ => ?_
    rw [Pi.smul_apply, smul_eq_mul, ← congrFun (firstOf_padded (f' i)) a]
    rfl
  · have e' : firstOf (P'.data.N * 2) (padded (f' i)) = f' i := firstOf_padded (f' i)
    rw [e']
    refine ⟨hf'.ne_zero i, ?_⟩
    change E.mulVec (Matrix.mulVec (m := Fin (P.data.N * 2)) (n := Fin (P.data.N * 2)) (curlOp P').mat (E.mulVec (f' i))) = (mu i : ℂ) • E.mulVec (f' i)
    rw [c2, hev' i, Matrix.mulVec_smul]

theorem exchanged_symm {P P' : Problem} (h : Exchanged P P') : Exchanged P' P := by
  obtain ⟨h1, h2, h3, h4, h5, h6, he, hm⟩ := h
  refine ⟨h1.symm, h2.symm, h3.symm, h4.symm, h5.symm, h6.symm, ?_, ?_⟩
  · rw [h1, h2, h3]
    exact fun r hr => (hm r hr).symm
  · rw [h1, h2, h3]
    exact fun r hr => (he r hr).symm

theorem exchanged_passive {P P' : Problem} (h : Exchanged P P') (hp : Passive P) : Passive P' := by
  obtain ⟨h1, h2, h3, -, -, -, he, hm⟩ := h
  unfold Passive
  rw [h1, h2, h3]
  intro r hr
  rw [he r hr, hm r hr]
  exact (hp r hr).symm

/-- C117.  For every grid, lattice and wavevector, and all positive definite materials: the structure in which permittivity and permeability are exchanged has exactly
as many independent modes up to any frequency, so it has the same frequencies with the same multiplicities. -/
theorem C117_frequencies {P P' : Problem} (h : Exchanged P P') (hp : Passive P) (lam : ℝ) (n : ℕ) : ModesUpTo P.data lam n ↔ ModesUpTo P'.data lam n :=
  ⟨exchanged_up h hp lam n, exchanged_up (exchanged_symm h) (exchanged_passive h hp) lam n⟩

/-- C117, fields.  The magnetic field amplitudes `B` of a mode of the exchanged structure are those of `D = curl H` of the mode of the first, where `H` is what `maxwell_muinv_operator`
makes of the amplitudes `X`. -/
theorem C117_fields {P P' : Problem} (h : Exchanged P P') (hp : Passive P) {lam : ℝ} (hlam : lam ≠ 0) {X : ℕ → ℂ} (hX : IsMode P.data lam X)
    {K : ℕ → V3 ℝ} (hK : ∀ G < P.data.N, IsBasis (K G) (P.data.kpg G)) {bufs : ℕ → ℕ → ℂ} {Z H Y : ℕ → ℂ} (hH : muinvOperator P.data 1 bufs X Z = some H)
    (hY : ∀ G < P.data.N, cart (P.data.kpg G) (Y (G * 2), Y (G * 2 + 1)) = V3.cross (toC (K G)) (cart (P.data.kpg G) (H (G * 2), H (G * 2 + 1)))) :
    IsMode P'.data lam Y := by
  obtain ⟨nx, ny, nz, nfb, Rm, kk, e', m'⟩ := P'
  obtain ⟨h1, h2, h3, h4, h5, h6, he, hmu⟩ := h
  dsimp only at h1 h2 h3 h4 h5 h6 he
  subst h1 h2 h3 h4 h5 h6
  set P' : Problem := dualOf P e' m' with hP'
  change IsMode P'.data lam Y
  have hn : 0 < P.nfb := by
    by_contra hc
    exact not_isMode _ (by show P.nfb = 0; omega) _ _ hX
  set M := (muOp P).mat with hM
  set E : Matrix (Fin (P.data.N * 2)) (Fin (P.data.N * 2)) ℂ := (muOp P').mat with hE
  set R := (curlTOp P).mat with hR
  have pM : M.PosDef := muOp_posDef P fun r hr => (hp r hr).2
  have uM := (Matrix.isUnit_iff_isUnit_det _).1 pM.isUnit
  have iM : ∀ x, M⁻¹.mulVec (M.mulVec x) = x := fun x => by rw [mulVec_mulVec, Matrix.nonsing_inv_mul _ uM, one_mulVec]
  have c1 : ∀ v, (curlOp P).mat.mulVec v = -R.mulVec (E.mulVec (R.mulVec v)) := curl_dualOf P e' m' hmu
  have c2 : ∀ v : Fin (P.data.N * 2) → ℂ, Matrix.mulVec (m := Fin (P.data.N * 2)) (n := Fin (P.data.N * 2)) (curlOp P').mat v = -R.mulVec (M.mulVec (R.mulVec v)) :=
    curl_dualOf P' P.epsInv P.muInv (fun r hr => (he r hr).symm)
  obtain ⟨hx0, hx1⟩ := (isMode_matrix P hn lam X).1 hX
  have hx2 : -R.mulVec (E.mulVec (R.mulVec (M.mulVec (firstOf (P.data.N * 2) X)))) = (lam : ℂ) • firstOf (P.data.N * 2) X := by
    have h3 := congrArg M⁻¹.mulVec hx1
    rw [Matrix.mulVec_smul, iM, iM, c1] at h3
    exact h3
  -- the amplitudes of the field
  obtain ⟨H', f2, g2, -⟩ := C04_muinv_bands P.data 1 hn bufs X Z
  obtain rfl : H = H' := Option.some.inj (hH.symm.trans f2)
  have hHM : ∀ G < P.data.N, (H (G * 2), H (G * 2 + 1)) = (muOp P).T (pairs X) G := by
    intro G hG
    have := g2 0 (by omega) G hG
    rw [band1, band_pairs] at this
    exact this
  have hYR : ∀ G < P.data.N, pairs Y G = (curlTOp P).T ((muOp P).T (pairs X)) G := by
    intro G hG
    have e1 := hY G hG
    have e2 := hHM G hG
    rw [e2] at e1
    rw [← C02_curl_t2c _ _ (hK G hG), crossT2c_turn, C02_t2c] at e1
    have inj : ∀ a b : ℂ × ℂ, cart (P.data.kpg G) a = cart (P.data.kpg G) b → a = b := by
      intro a b hab
      have ha := C02_roundtrip _ _ (hK G hG) a.1 a.2 1
      have hb := C02_roundtrip _ _ (hK G hG) b.1 b.2 1
      rw [C02_t2c] at ha hb
      rw [show ((a.1, a.2) : ℂ × ℂ) = a from rfl, hab] at ha
      rw [show ((b.1, b.2) : ℂ × ℂ) = b from rfl] at hb
      have := ha.symm.trans hb
      simpa using this
    exact inj _ _ e1
  have hy : firstOf (P.data.N * 2) Y = R.mulVec (M.mulVec (firstOf (P.data.N * 2) X)) := by
    rw [hR, hM, PairOp.mulVec, PairOp.mulVec, LinearEquiv.apply_symm_apply]
    funext i
    have := symm_congr (N := P.data.N) hYR i.2
    rw [LinearEquiv.symm_apply_apply] at this
    exact this
  refine (isMode_matrix P' hn lam Y).2 ?_
  have e' : firstOf (P'.data.N * 2) Y = firstOf (P.data.N * 2) Y := rfl
  rw [e', hy]
  refine ⟨fun h0 => ?_, ?_⟩
  · have h0' : R.mulVec (M.mulVec (firstOf (P.data.N * 2) X)) = 0 := h0
    rw [h0', mulVec_zero, mulVec_zero, neg_zero] at hx2
    rcases smul_eq_zero.1 hx2.symm with h | h
    · exact hlam (by exact_mod_cast h)
    · exact hx0 h
  · change E.mulVec (Matrix.mulVec (m := Fin (P.data.N * 2)) (n := Fin (P.data.N * 2)) (curlOp P').mat (E.mulVec _)) = (lam : ℂ) • E.mulVec _
    rw [c2, ← Matrix.mulVec_smul]
    congr 1
    rw [← Matrix.mulVec_smul, ← Matrix.mulVec_smul, ← hx2]
    simp only [mulVec_neg]

/-! ### From the user's materials -/

theorem dielectric_value {md md' r r' : Tensor.MData} {a : Tensor.DielArgs} (h : Tensor.setDielectric md a = .ok r) (h' : Tensor.setDielectric md' a = .ok r')
    (ex : md'.nx = md.nx) (ey : md'.ny = md.ny) (ez : md'.nz = md.nz) : ∀ i < md.nx * md.ny * md.nz, r'.heap md'.epsInv i = r.heap md.epsInv i := by
  intro i hi
  obtain ⟨x, hx, y, hy, z, hz, rfl⟩ := index3 hi
  obtain ⟨f, hf, -⟩ := Tensor.setDielectric_ok h
  obtain ⟨f', hf', -⟩ := Tensor.setDielectric_ok h'
  obtain ⟨a1, a2⟩ := hf x y z hx hy hz
  obtain ⟨b1, b2⟩ := hf' x y z (by omega) (by omega) (by omega)
  rw [ex, ey, ez] at b1
  rw [ey, ez] at b2
  rw [a2, b2]
  rw [a1] at b1
  exact (Tensor.Res.ok_inj b1).symm

theorem setMu_size {md md' : Tensor.MData} {a : Tensor.DielArgs} (h : Tensor.setMu md a = .ok md') : md'.nx = md.nx ∧ md'.ny = md.ny ∧ md'.nz = md.nz := by
  unfold Tensor.setMu at h
  dsimp only at h
  split at h
  swap
  · cases h
  swap
  · cases h
  rename_i md2 h2
  have := Tensor.Res.ok_inj h
  subst this
  dsimp only
  obtain ⟨-, -, -, -, -, e1, e2, e3, -⟩ := Tensor.setDielectric_ok h2
  have h3 : (Tensor.allocMu md).nx = md.nx ∧ (Tensor.allocMu md).ny = md.ny ∧ (Tensor.allocMu md).nz = md.nz := by
    unfold Tensor.allocMu
    cases md.muInv <;> exact ⟨rfl, rfl, rfl⟩
  exact ⟨e1.trans h3.1, e2.trans h3.2.1, e3.trans h3.2.2⟩

/-- What two calls, `set_maxwell_dielectric` and `set_maxwell_mu`, leave in the two arrays. -/
theorem stored_both {md md1 md2 : Tensor.MData} {a b : Tensor.DielArgs} (hw : Tensor.Spec.WellFormed md) (h1 : Tensor.setDielectric md a = .ok md1)
    (h2 : Tensor.setMu md1 b = .ok md2) : (md2.nx = md.nx ∧ md2.ny = md.ny ∧ md2.nz = md.nz) ∧
      (∀ i, md2.heap md2.epsInv i = md1.heap md.epsInv i) ∧
      ∃ p r, md2.muInv = some p ∧ Tensor.setDielectric md1 b = .ok r ∧ ∀ i < md.nx * md.ny * md.nz, md2.heap p i = r.heap md1.epsInv i := by
  obtain ⟨-, -, -, -, -, e1, e2, e3, e4, e5, -, e7⟩ := Tensor.setDielectric_ok h1
  have hw1 : Tensor.Spec.WellFormed md1 := by
    refine ⟨by rw [e4, e7]; exact hw.1, fun p hp => ?_⟩
    rw [e5] at hp
    rw [e4, e7]
    exact hw.2 p hp
  obtain ⟨-, -, c3, -, p, c5, -, -, r, c7, -, c9⟩ := Tensor.C13_set_mu md1 md2 b hw1 h2
  obtain ⟨s1, s2, s3⟩ := setMu_size h2
  refine ⟨⟨s1.trans e1, s2.trans e2, s3.trans e3⟩, fun i => by rw [c3, e4], p, r, c5, c7, fun i hi => ?_⟩
  refine c9 i ?_
  unfold Tensor.MData.size
  rwa [e1, e2, e3]

/-- C117, set-up.  Giving the permittivity of the first structure as the permeability of the second and the other way round, with any averaging mesh, leaves the stored tensors exchanged. -/
theorem C117_setup {md md' md1 md2 md1' md2' : Tensor.MData} {a b : Tensor.DielArgs} (hw : Tensor.Spec.WellFormed md) (hw' : Tensor.Spec.WellFormed md')
    (hx : md'.nx = md.nx) (hy : md'.ny = md.ny) (hz : md'.nz = md.nz)
    (h1 : Tensor.setDielectric md a = .ok md1) (h2 : Tensor.setMu md1 b = .ok md2)
    (h1' : Tensor.setDielectric md' b = .ok md1') (h2' : Tensor.setMu md1' a = .ok md2') (nfb : ℕ) (Rm : M3 ℝ) (k : V3 ℝ) :
    Exchanged (problemOf nfb Rm k md2) (problemOf nfb Rm k md2') := by
  obtain ⟨⟨s1, s2, s3⟩, se, p, r, sp, sr, sm⟩ := stored_both hw h1 h2
  obtain ⟨⟨s1', s2', s3'⟩, se', p', r', sp', sr', sm'⟩ := stored_both hw' h1' h2'
  obtain ⟨-, -, -, -, -, e1, e2, e3, -⟩ := Tensor.setDielectric_ok h1
  obtain ⟨-, -, -, -, -, e1', e2', e3', -⟩ := Tensor.setDielectric_ok h1'
  have m1 : ∀ i, invMu (problemOf nfb Rm k md2) i = md2.heap p i := fun i => by simp [invMu, problemOf, sp]
  have m2 : ∀ i, invMu (problemOf nfb Rm k md2') i = md2'.heap p' i := fun i => by simp [invMu, problemOf, sp']
  refine ⟨by simp only [problemOf]; omega, by simp only [problemOf]; omega, by simp only [problemOf]; omega, rfl, rfl, rfl, fun i hi => ?_, fun i hi => ?_⟩
  · have hi : i < md.nx * md.ny * md.nz := by
      have : i < md2.nx * md2.ny * md2.nz := hi
      rwa [s1, s2, s3] at this
    rw [m1, sm i hi]
    change md2'.heap md2'.epsInv i = _
    rw [se']
    exact (dielectric_value h1' sr (by omega) (by omega) (by omega) i (by rw [hx, hy, hz]; exact hi)).symm
  · have hi : i < md.nx * md.ny * md.nz := by
      have : i < md2.nx * md2.ny * md2.nz := hi
      rwa [s1, s2, s3] at this
    rw [m2, sm' i (by rw [hx, hy, hz]; exact hi)]
    change _ = md2.heap md2.epsInv i
    rw [se]
    exact dielectric_value h1 sr' (by omega) (by omega) (by omega) i hi

/-- Non-vacuity: a stack of two layers, permittivity 4 in one, and the stack with permeability 4 instead. -/
noncomputable def stackE : Problem := ⟨4, 1, 1, 1, M3.one, ⟨1 / 4, 0, 0⟩, fun r => if r < 2 then ⟨1 / 4, 1 / 4, 1 / 4, 0, 0, 0⟩ else ⟨1, 1, 1, 0, 0, 0⟩, none⟩
noncomputable def stackM : Problem := ⟨4, 1, 1, 1, M3.one, ⟨1 / 4, 0, 0⟩, fun _ => ⟨1, 1, 1, 0, 0, 0⟩,
  some fun r => if r < 2 then ⟨1 / 4, 1 / 4, 1 / 4, 0, 0, 0⟩ else ⟨1, 1, 1, 0, 0, 0⟩⟩

theorem iso_posDef {c : ℝ} (hc : 0 < c) : Tensor.Spec.PosDef ⟨c, c, c, 0, 0, 0⟩ := by
  refine (posDef_iff _).2 ?_
  have : Tensor.Spec.toMatrix ⟨c, c, c, 0, 0, 0⟩ = diagonal fun _ => (c : ℂ) := by
    ext i j
    fin_cases i <;> fin_cases j <;> simp [Tensor.Spec.toMatrix]
  rw [this, Matrix.posDef_diagonal_iff]
  exact fun _ => by exact_mod_cast hc

example : Exchanged stackE stackM ∧ Passive stackE := by
  refine ⟨⟨rfl, rfl, rfl, rfl, rfl, rfl, fun _ _ => rfl, fun _ _ => rfl⟩, fun r _ => ⟨?_, iso_posDef one_pos⟩⟩
  change Tensor.Spec.PosDef (if r < 2 then _ else _)
  split_ifs
  · exact iso_posDef (by norm_num)
  · exact iso_posDef one_pos

end Mpb.Invariance

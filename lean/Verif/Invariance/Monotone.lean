import Verif.Invariance.Homogeneous
import Verif.Invariance.Frame
import Verif.Invariance.MinMax
import Verif.Invariance.Scale
import Verif.Invariance.Reverse

/-! # C104: more permittivity or permeability never raises a frequency -/

namespace Mpb.Invariance
open Mpb.Maxwell Mpb.Maxwell.Spec Spec MinMax
open Matrix
open scoped ComplexOrder

/-! ### Operators on amplitudes as matrices -/

/-- Amplitudes beyond the last planewave set to zero. -/
def padded {m : ℕ} (x : Fin m → ℂ) (a : ℕ) : ℂ := if h : a < m then x ⟨a, h⟩ else 0

/-- The first `m` amplitudes. -/
def firstOf (m : ℕ) (X : ℕ → ℂ) : Fin m → ℂ := fun i => X i

theorem firstOf_padded {m : ℕ} (x : Fin m → ℂ) : firstOf m (padded x) = x := by
  funext i
  simp [firstOf, padded]

theorem padded_firstOf {m : ℕ} (X : ℕ → ℂ) {a : ℕ} (ha : a < m) : padded (firstOf m X) a = X a := by
  simp [firstOf, padded, ha]

/-- An operator on the pairs of amplitudes that is linear and looks at the planewaves of the grid only. -/
structure PairOp (N : ℕ) where
  T : (ℕ → ℂ × ℂ) → ℕ → ℂ × ℂ
  linear : ∀ x y (s t : ℂ) G, T (fun G => (s * (x G).1 + t * (y G).1, s * (x G).2 + t * (y G).2)) G =
    (s * (T x G).1 + t * (T y G).1, s * (T x G).2 + t * (T y G).2)
  loc : ∀ x y, (∀ G < N, x G = y G) → ∀ G, G < N → T x G = T y G

/-- Its matrix. -/
noncomputable def PairOp.mat {N : ℕ} (o : PairOp N) : Matrix (Fin (N * 2)) (Fin (N * 2)) ℂ :=
  LinearMap.toMatrix' (R := ℂ)
    { toFun := fun x => firstOf (N * 2) (pairs.symm (o.T (pairs (padded x))))
      map_add' := by
        intro x y
        have h : o.T (pairs (padded (x + y))) = o.T (pairs (padded x)) + o.T (pairs (padded y)) := by
          have e : pairs (padded (x + y)) = fun G => ((1 : ℂ) * (pairs (padded x) G).1 + 1 * (pairs (padded y) G).1,
              (1 : ℂ) * (pairs (padded x) G).2 + 1 * (pairs (padded y) G).2) := by
            funext G
            refine Prod.ext ?_ ?_ <;> simp only [pairs, LinearEquiv.coe_mk, LinearMap.coe_mk, AddHom.coe_mk, padded, one_mul] <;> split_ifs <;> simp
          funext G
          rw [e, o.linear]
          refine Prod.ext ?_ ?_ <;> simp
        rw [h, map_add]
        rfl
      map_smul' := by
        intro c x
        have h : o.T (pairs (padded (c • x))) = c • o.T (pairs (padded x)) := by
          have e : pairs (padded (c • x)) = fun G => (c * (pairs (padded x) G).1 + 0 * (pairs (padded x) G).1,
              c * (pairs (padded x) G).2 + 0 * (pairs (padded x) G).2) := by
            funext G
            refine Prod.ext ?_ ?_ <;> simp only [pairs, LinearEquiv.coe_mk, LinearMap.coe_mk, AddHom.coe_mk, padded, zero_mul, add_zero] <;> split_ifs <;> simp
          funext G
          rw [e, o.linear]
          refine Prod.ext ?_ ?_ <;> simp
        rw [h, map_smul]
        rfl }

theorem pairs_congr {N : ℕ} {X Y : ℕ → ℂ} (h : ∀ a < N * 2, X a = Y a) {G : ℕ} (hG : G < N) : pairs X G = pairs Y G := by
  refine Prod.ext ?_ ?_
  · exact h _ (by omega)
  · exact h _ (by omega)

theorem symm_congr {N : ℕ} {x y : ℕ → ℂ × ℂ} (h : ∀ G < N, x G = y G) {a : ℕ} (ha : a < N * 2) : pairs.symm x a = pairs.symm y a := by
  show (if a % 2 = 0 then (x (a / 2)).1 else (x (a / 2)).2) = if a % 2 = 0 then (y (a / 2)).1 else (y (a / 2)).2
  rw [h (a / 2) (by omega)]

theorem PairOp.mulVec {N : ℕ} (o : PairOp N) (X : ℕ → ℂ) : o.mat.mulVec (firstOf (N * 2) X) = firstOf (N * 2) (pairs.symm (o.T (pairs X))) := by
  unfold PairOp.mat
  rw [LinearMap.toMatrix'_mulVec]
  funext i
  refine symm_congr (N := N) (fun G hG => ?_) i.2
  exact o.loc _ _ (fun G' hG' => pairs_congr (fun a ha => padded_firstOf X ha) hG') G hG

theorem dot_firstOf (N : ℕ) (X Y : ℕ → ℂ) : star (firstOf (N * 2) X) ⬝ᵥ firstOf (N * 2) Y = inner N (pairs X) (pairs Y) := by
  have h : star (firstOf (N * 2) X) ⬝ᵥ firstOf (N * 2) Y = ∑ a ∈ Finset.range (N * 2), (starRingEnd ℂ) (X a) * Y a := by
    rw [← Fin.sum_univ_eq_sum_range (fun a => (starRingEnd ℂ) (X a) * Y a)]
    rfl
  rw [h]
  unfold Spec.inner
  clear h
  induction N with
  | zero => simp
  | succ N ih =>
    rw [Nat.succ_mul, Finset.sum_range_succ, Finset.sum_range_succ, ih, Finset.sum_range_succ, add_assoc]
    rfl

theorem PairOp.dot {N : ℕ} (o : PairOp N) (X Y : ℕ → ℂ) :
    star (firstOf (N * 2) X) ⬝ᵥ o.mat.mulVec (firstOf (N * 2) Y) = inner N (pairs X) (o.T (pairs Y)) := by
  rw [o.mulVec, dot_firstOf, LinearEquiv.apply_symm_apply]

theorem PairOp.hermitian {N : ℕ} (o : PairOp N) (h : ∀ x y, inner N x (o.T y) = (starRingEnd ℂ) (inner N y (o.T x))) : o.mat.IsHermitian := by
  have key : ∀ i j, o.mat i j = star (Pi.single i 1 : Fin (N * 2) → ℂ) ⬝ᵥ o.mat.mulVec (Pi.single j 1) := by
    intro i j
    rw [Matrix.mulVec_single_one]
    simp [dotProduct, Pi.single_apply]
  ext i j
  rw [conjTranspose_apply, key, key]
  have hs : ∀ x : Fin (N * 2) → ℂ, x = firstOf (N * 2) (padded x) := fun x => (firstOf_padded x).symm
  rw [hs (Pi.single i 1), hs (Pi.single j 1), o.dot, o.dot, h (pairs (padded (Pi.single i 1)))]
  rfl

theorem PairOp.form_eq {N : ℕ} (o : PairOp N) (x : Fin (N * 2) → ℂ) : form o.mat x = (inner N (pairs (padded x)) (o.T (pairs (padded x)))).re := by
  unfold form
  rw [← o.dot, firstOf_padded]

/-! ### The two operators of a problem -/

/-- The curl-curl operator with the inverse permittivity. -/
noncomputable def curlOp (P : Problem) : PairOp P.data.N where
  T := bandOp P.data
  linear x y s t G := by
    refine colOp_linear crossT2c crossC2t P.data _ _ s t (fun k x y x' y' => ?_) (fun k a b => ?_) x y G
    · ext <;> apply Complex.ext <;> simp [crossT2c] <;> ring
    · refine Prod.ext ?_ ?_ <;> apply Complex.ext <;> simp [crossC2t] <;> ring
  loc x y h G _ := colOp_congr _ _ _ _ _ h G

/-- The multiplication by the inverse permeability. -/
noncomputable def muOp (P : Problem) : PairOp P.data.N where
  T := bandMuinv P.data
  linear x y s t G := by
    unfold bandMuinv
    cases P.data.muInv with
    | none => rfl
    | some mu =>
      refine colOp_linear t2c c2t P.data _ _ s t (fun k x y x' y' => ?_) (fun k a b => ?_) x y G
      · ext <;> apply Complex.ext <;> simp [t2c] <;> ring
      · refine Prod.ext ?_ ?_ <;> apply Complex.ext <;> simp [c2t] <;> ring
  loc x y h G hG := by
    unfold bandMuinv
    cases P.data.muInv with
    | none => exact h G hG
    | some mu => exact colOp_congr _ _ _ _ _ h G

theorem bandMu_unit (P : Problem) (x : ℕ → ℂ × ℂ) {G : ℕ} (hG : G < P.data.N) : bandMu P.data (fun _ => ⟨1, 1, 1, 0, 0, 0⟩) x G = x G := by
  obtain ⟨K, hK, -⟩ := data_isBasis P
  unfold bandMu colOp
  rw [Target.homogeneous_chain (data_inverse P) (fun _ _ => rfl) _ hG]
  have hN : ((P.data.N : ℝ) : ℂ) ≠ 0 := by exact_mod_cast (by omega : P.data.N ≠ 0)
  have e : V3.smul ((P.data.N * 1 : ℝ) : ℂ) (t2c (P.data.kpg G) (x G).1 (x G).2) = t2c (P.data.kpg G) ((P.data.N : ℂ) * (x G).1) ((P.data.N : ℂ) * (x G).2) := by
    ext <;> apply Complex.ext <;> simp [t2c] <;> ring
  rw [e, C02_roundtrip _ _ (hK G hG)]
  push_cast at hN ⊢
  refine Prod.ext ?_ ?_ <;> dsimp only <;> field_simp

theorem bandMuinv_eq (P : Problem) (x : ℕ → ℂ × ℂ) {G : ℕ} (hG : G < P.data.N) : bandMuinv P.data x G = bandMu P.data (invMu P) x G := by
  have h : P.data.muInv = P.muInv := rfl
  cases hm : P.muInv with
  | none =>
    have e : invMu P = fun _ => ⟨1, 1, 1, 0, 0, 0⟩ := by funext r; simp [invMu, hm]
    rw [e, bandMu_unit P x hG]
    unfold bandMuinv
    rw [h, hm]
  | some mu =>
    have e : invMu P = mu := by funext r; simp [invMu, hm]
    rw [e]
    unfold bandMuinv
    rw [h, hm]

theorem inner_congr {N : ℕ} {x y y' : ℕ → ℂ × ℂ} (h : ∀ G < N, y G = y' G) : inner N x y = inner N x y' := by
  unfold Spec.inner
  exact Finset.sum_congr rfl fun G hG => by rw [h G (Finset.mem_range.1 hG)]

theorem inner_muOp (P : Problem) (x y : ℕ → ℂ × ℂ) :
    inner P.data.N x ((muOp P).T y) = gridForm P.data.N (invMu P) (plainField P.data x) (plainField P.data y) := by
  rw [inner_congr (y := (muOp P).T y) (y' := bandMu P.data (invMu P) y) (fun G hG => bandMuinv_eq P y hG)]
  exact inner_plain (data_adjoint P) _ x y

theorem form_curl (P : Problem) {K : ℕ → V3 ℝ} (hK : ∀ G < P.data.N, IsBasis (K G) (P.data.kpg G)) (x : Fin (P.data.N * 2) → ℂ) :
    form (curlOp P).mat x = (gridForm P.data.N P.epsInv (curlField P.data K (pairs (padded x))) (curlField P.data K (pairs (padded x)))).re := by
  rw [PairOp.form_eq]
  exact congrArg Complex.re (inner_curl (data_adjoint P) hK _ _ _)

theorem form_mu (P : Problem) (x : Fin (P.data.N * 2) → ℂ) :
    form (muOp P).mat x = (gridForm P.data.N (invMu P) (plainField P.data (pairs (padded x))) (plainField P.data (pairs (padded x)))).re := by
  rw [PairOp.form_eq]
  exact congrArg Complex.re (inner_muOp P _ _)

theorem curlOp_hermitian (P : Problem) : (curlOp P).mat.IsHermitian := by
  obtain ⟨K, hK, -⟩ := data_isBasis P
  refine PairOp.hermitian _ fun x y => ?_
  have h : ∀ x y, inner P.data.N x ((curlOp P).T y) = gridForm P.data.N P.epsInv (curlField P.data K x) (curlField P.data K y) :=
    fun x y => inner_curl (data_adjoint P) hK _ _ _
  rw [h, h, gridForm_symm]

/-! ### Tensors -/

theorem herm_eq_dot (e : HMat) (v : V3 ℂ) : herm v (e.mulVec v) = star ![v.x, v.y, v.z] ⬝ᵥ (Tensor.Spec.toMatrix e).mulVec ![v.x, v.y, v.z] := by
  apply Complex.ext <;> simp [herm, HMat.mulVec, Tensor.Spec.toMatrix, Matrix.mulVec, dotProduct, Fin.sum_univ_three] <;> ring

theorem toMatrix_hermitian (e : HMat) : (Tensor.Spec.toMatrix e).IsHermitian := by
  ext i j
  fin_cases i <;> fin_cases j <;> simp [Tensor.Spec.toMatrix, conjTranspose_apply]

theorem posDef_iff (e : HMat) : Tensor.Spec.PosDef e ↔ (Tensor.Spec.toMatrix e).PosDef := by
  constructor
  · intro h
    refine Matrix.PosDef.of_dotProduct_mulVec_pos (toMatrix_hermitian e) fun v hv => ?_
    have him : (star v ⬝ᵥ (Tensor.Spec.toMatrix e).mulVec v).im = 0 := by
      have : star (star v ⬝ᵥ (Tensor.Spec.toMatrix e).mulVec v) = star v ⬝ᵥ (Tensor.Spec.toMatrix e).mulVec v := by
        rw [← star_dotProduct, star_mulVec, (toMatrix_hermitian e), dotProduct_mulVec]
      exact Complex.conj_eq_iff_im.1 this
    rw [Complex.lt_def]
    exact ⟨h v hv, him.symm⟩
  · intro h v hv
    exact (Complex.lt_def.1 (h.dotProduct_mulVec_pos hv)).1

/-- What a denser medium means for the stored inverse tensors. -/
theorem denser_inverse {i i' : HMat} (h : Denser i i') : Tensor.Spec.PosDef i ∧ Tensor.Spec.PosDef i' ∧
    ∀ v : V3 ℂ, (herm v (i'.mulVec v)).re ≤ (herm v (i.mulVec v)).re := by
  obtain ⟨e, e', h1, h2, hp, hle⟩ := h
  have hp' : Tensor.Spec.PosDef e' := fun v hv => lt_of_lt_of_le (hp v hv) (hle v)
  have p1 := (posDef_iff e).1 hp
  have p2 := (posDef_iff e').1 hp'
  have i1 : (Tensor.Spec.toMatrix e)⁻¹ = Tensor.Spec.toMatrix i := Matrix.inv_eq_right_inv h1
  have i2 : (Tensor.Spec.toMatrix e')⁻¹ = Tensor.Spec.toMatrix i' := Matrix.inv_eq_right_inv h2
  refine ⟨(posDef_iff i).2 (i1 ▸ p1.inv), (posDef_iff i').2 (i2 ▸ p2.inv), fun v => ?_⟩
  rw [herm_eq_dot, herm_eq_dot, ← i1, ← i2]
  exact form_inv_le p2 p1 hle _

theorem gridForm_le {N : ℕ} {M M' : ℕ → HMat} (h : ∀ r < N, ∀ v : V3 ℂ, (herm v ((M' r).mulVec v)).re ≤ (herm v ((M r).mulVec v)).re) (a : ℕ → V3 ℂ) :
    (gridForm N M' a a).re ≤ (gridForm N M a a).re := by
  unfold gridForm
  have : (1 / (N : ℂ)) = ((1 / (N : ℝ) : ℝ) : ℂ) := by push_cast; rfl
  rw [this, Complex.re_ofReal_mul, Complex.re_ofReal_mul, Complex.re_sum, Complex.re_sum]
  exact mul_le_mul_of_nonneg_left (Finset.sum_le_sum fun r hr => h r (Finset.mem_range.1 hr) _) (by positivity)

theorem herm_pos {e : HMat} (h : Tensor.Spec.PosDef e) {v : V3 ℂ} (hv : v ≠ ⟨0, 0, 0⟩) : 0 < (herm v (e.mulVec v)).re := by
  rw [herm_eq_dot]
  refine h _ fun h0 => hv ?_
  have a := congrFun h0 0; have b := congrFun h0 1; have c := congrFun h0 2
  ext
  · exact a
  · exact b
  · exact c

theorem herm_nonneg {e : HMat} (h : Tensor.Spec.PosDef e) (v : V3 ℂ) : 0 ≤ (herm v (e.mulVec v)).re := by
  by_cases hv : v = ⟨0, 0, 0⟩
  · subst hv; simp [herm]
  · exact (herm_pos h hv).le

theorem muOp_posDef (P : Problem) (h : ∀ r < P.data.N, Tensor.Spec.PosDef (invMu P r)) : (muOp P).mat.PosDef := by
  have hH : (muOp P).mat.IsHermitian := by
    refine PairOp.hermitian _ fun x y => ?_
    rw [inner_muOp, inner_muOp, gridForm_symm]
  refine Matrix.PosDef.of_dotProduct_mulVec_pos hH fun x hx => ?_
  have him : (star x ⬝ᵥ (muOp P).mat.mulVec x).im = 0 := by
    have : star (star x ⬝ᵥ (muOp P).mat.mulVec x) = star x ⬝ᵥ (muOp P).mat.mulVec x := by
      rw [← star_dotProduct, star_mulVec, hH, dotProduct_mulVec]
    exact Complex.conj_eq_iff_im.1 this
  rw [Complex.lt_def]
  refine ⟨?_, him.symm⟩
  show 0 < form (muOp P).mat x
  rw [form_mu]
  set z := pairs (padded x) with hz
  -- some point of the grid sees a field
  have hne : ∃ r < P.data.N, plainField P.data z r ≠ ⟨0, 0, 0⟩ := by
    by_contra hc
    push Not at hc
    apply hx
    have hzero : ∀ G < P.data.N, z G = 0 := by
      intro G hG
      rw [← bandMu_unit P z hG]
      unfold bandMu colOp
      have e1 : ∀ r < P.data.N, transform P.data.Wf P.data.N (fun G => t2c (P.data.kpg G) (z G).1 (z G).2) r = ⟨0, 0, 0⟩ := by
        intro r hr
        have := hc r hr
        simp only [C02_t2c]
        exact this
      have e2 : transform P.data.Wb P.data.N (fun r => (⟨1, 1, 1, 0, 0, 0⟩ : HMat).mulVec
          (transform P.data.Wf P.data.N (fun G => t2c (P.data.kpg G) (z G).1 (z G).2) r)) G = ⟨0, 0, 0⟩ := by
        rw [transform_congr (b := fun _ => ⟨0, 0, 0⟩) fun r hr => by rw [e1 r hr]; ext <;> apply Complex.ext <;> simp [HMat.mulVec]]
        simp [transform]
      rw [e2]
      refine Prod.ext ?_ ?_ <;> apply Complex.ext <;> simp [c2t]
    rw [← firstOf_padded x]
    funext i
    have hG := hzero (i / 2) (by have := i.2; omega)
    show padded x i = 0
    have h1 : padded x ((i : ℕ) / 2 * 2) = 0 := congrArg Prod.fst hG
    have h2 : padded x ((i : ℕ) / 2 * 2 + 1) = 0 := congrArg Prod.snd hG
    rcases Nat.mod_two_eq_zero_or_one i with hm | hm
    · rwa [show (i : ℕ) / 2 * 2 = i by omega] at h1
    · rwa [show (i : ℕ) / 2 * 2 + 1 = i by omega] at h2
  obtain ⟨r, hr, hv⟩ := hne
  unfold gridForm
  have : (1 / (P.data.N : ℂ)) = ((1 / (P.data.N : ℝ) : ℝ) : ℂ) := by push_cast; rfl
  rw [this, Complex.re_ofReal_mul, Complex.re_sum]
  have hN : 0 < P.data.N := by omega
  refine mul_pos (by positivity) (Finset.sum_pos' (fun r hr => herm_nonneg (h r (Finset.mem_range.1 hr)) _) ⟨r, Finset.mem_range.2 hr, herm_pos (h r hr) hv⟩)

/-! ### Modes in terms of the matrices -/

theorem isMode_matrix (P : Problem) (hn : 0 < P.nfb) (lam : ℝ) (X : ℕ → ℂ) : IsMode P.data lam X ↔ firstOf (P.data.N * 2) X ≠ 0 ∧
    (muOp P).mat.mulVec ((curlOp P).mat.mulVec ((muOp P).mat.mulVec (firstOf (P.data.N * 2) X))) = (lam : ℂ) • (muOp P).mat.mulVec (firstOf (P.data.N * 2) X) := by
  rw [isMode_iff _ hn, band_pairs, PairOp.mulVec, PairOp.mulVec, PairOp.mulVec, LinearEquiv.apply_symm_apply, LinearEquiv.apply_symm_apply]
  have hM : bandMaxwell P.data (pairs X) = (muOp P).T ((curlOp P).T ((muOp P).T (pairs X))) := by
    show _ = bandMuinv P.data (bandOp P.data (bandMuinv P.data (pairs X)))
    unfold bandMaxwell bandMuinv
    cases P.data.muInv <;> rfl
  refine and_congr ?_ ?_
  · constructor
    · rintro ⟨G, hG, h⟩ h0
      apply h
      refine Prod.ext ?_ ?_
      · exact congrFun h0 ⟨G * 2, by omega⟩
      · exact congrFun h0 ⟨G * 2 + 1, by omega⟩
    · intro h
      by_contra hc
      push Not at hc
      apply h
      funext i
      have hi := hc (i / 2) (by have := i.2; omega)
      have h1 : X ((i : ℕ) / 2 * 2) = 0 := congrArg Prod.fst hi
      have h2 : X ((i : ℕ) / 2 * 2 + 1) = 0 := congrArg Prod.snd hi
      show X i = 0
      rcases Nat.mod_two_eq_zero_or_one i with hm | hm
      · rwa [show (i : ℕ) / 2 * 2 = i by omega] at h1
      · rwa [show (i : ℕ) / 2 * 2 + 1 = i by omega] at h2
  · rw [hM]
    constructor
    · intro h
      funext i
      have hi := h (i / 2) (by have := i.2; omega)
      show pairs.symm _ (i : ℕ) = (lam : ℂ) * pairs.symm _ (i : ℕ)
      show (if (i : ℕ) % 2 = 0 then _ else _) = (lam : ℂ) * (if (i : ℕ) % 2 = 0 then _ else _)
      rw [hi]
      split_ifs <;> rfl
    · intro h G hG
      have h1 := congrFun h ⟨G * 2, by omega⟩
      have h2 := congrFun h ⟨G * 2 + 1, by omega⟩
      have e1 : ∀ y, firstOf (P.data.N * 2) (pairs.symm y) ⟨G * 2, by omega⟩ = (y G).1 := by
        intro y
        show (if G * 2 % 2 = 0 then (y (G * 2 / 2)).1 else _) = _
        rw [if_pos (by omega), show G * 2 / 2 = G by omega]
      have e2 : ∀ y, firstOf (P.data.N * 2) (pairs.symm y) ⟨G * 2 + 1, by omega⟩ = (y G).2 := by
        intro y
        show (if (G * 2 + 1) % 2 = 0 then _ else (y ((G * 2 + 1) / 2)).2) = _
        rw [if_neg (by omega), show (G * 2 + 1) / 2 = G by omega]
      rw [Pi.smul_apply, smul_eq_mul, e1, e1] at h1
      rw [Pi.smul_apply, smul_eq_mul, e2, e2] at h2
      exact Prod.ext h1 h2

/-- C104.  For every grid, lattice and wavevector: if the permittivity and the permeability of the second structure are nowhere smaller than
those of the first (as Hermitian tensors, both positive definite), the second has at least as many modes up to any given frequency; so its
frequencies, counted with multiplicity from below, are not higher, band by band. -/
theorem C104_monotone {P P' : Problem} (h : Loaded P P') (lam : ℝ) (n : ℕ) (hm : ModesUpTo P.data lam n) : ModesUpTo P'.data lam n := by
  obtain ⟨nx, ny, nz, nfb, Rm, kk, e', m'⟩ := P'
  obtain ⟨h1, h2, h3, h4, h5, h6, he, hmu⟩ := h
  dsimp only at h1 h2 h3 h4 h5 h6 he hmu
  subst h1 h2 h3 h4 h5 h6
  set P' : Problem := ⟨P.nx, P.ny, P.nz, P.nfb, P.Rm, P.k, e', m'⟩ with hP'
  obtain ⟨X, hli, hX⟩ := hm
  rcases Nat.eq_zero_or_pos n with rfl | hn0
  · exact ⟨X, fun _ _ i => i.elim0, fun i => i.elim0⟩
  have hn : 0 < P.nfb := by
    by_contra hc
    obtain ⟨mu, -, hmode⟩ := hX ⟨0, hn0⟩
    exact not_isMode _ (by show P.nfb = 0; omega) _ _ hmode
  have he1 := fun r hr => denser_inverse (he r hr)
  have hm1 := fun r hr => denser_inverse (hmu r hr)
  set M := (muOp P).mat with hM
  set M' : Matrix (Fin (P.data.N * 2)) (Fin (P.data.N * 2)) ℂ := (muOp P').mat with hM'
  set C := (curlOp P).mat with hC
  set C' : Matrix (Fin (P.data.N * 2)) (Fin (P.data.N * 2)) ℂ := (curlOp P').mat with hC'
  have pM : M.PosDef := muOp_posDef P fun r hr => (hm1 r hr).1
  have pM' : M'.PosDef := muOp_posDef P' fun r hr => (hm1 r hr).2.1
  have uM := (Matrix.isUnit_iff_isUnit_det _).1 pM.isUnit
  have uM' := (Matrix.isUnit_iff_isUnit_det _).1 pM'.isUnit
  obtain ⟨K, hK, -⟩ := data_isBasis P
  have fC : ∀ x, form C' x ≤ form C x := by
    intro x
    have e1 := form_curl P hK x
    have e2 := form_curl P' (K := K) hK x
    rw [hC, hC', e1]
    refine e2.le.trans ?_
    exact gridForm_le (fun r hr v => (he1 r hr).2.2 v) _
  have fC0 : ∀ x, 0 ≤ form C x := by
    intro x
    rw [hC, form_curl P hK]
    exact gridForm_nonneg _ _ (fun r hr v => herm_nonneg (he1 r hr).1 v) _
  have fM : ∀ x, form M' x ≤ form M x := by
    intro x
    rw [hM, hM', form_mu P]
    refine (form_mu P' x).le.trans ?_
    exact gridForm_le (fun r hr v => (hm1 r hr).2.2 v) _
  -- the modes as eigenvectors of the pencil
  set f : Fin n → Fin (P.data.N * 2) → ℂ := fun i => M.mulVec (firstOf _ (X i)) with hf
  have hMf : ∀ i, M⁻¹.mulVec (f i) = firstOf _ (X i) := by
    intro i
    rw [hf]
    dsimp only
    rw [mulVec_mulVec, Matrix.nonsing_inv_mul _ uM, one_mulVec]
  have hfli : LinearIndependent ℂ f := by
    rw [Fintype.linearIndependent_iff]
    intro c hc i
    refine hli c (fun a ha => ?_) i
    have h1 : M⁻¹.mulVec (∑ i, c i • f i) = 0 := by rw [hc, mulVec_zero]
    rw [mulVec_sum] at h1
    have h2 := congrFun h1 ⟨a, ha⟩
    rw [Finset.sum_apply] at h2
    rw [← h2.trans (Pi.zero_apply _)]
    refine Finset.sum_congr rfl fun i _ => ?_
    rw [Matrix.mulVec_smul, hMf]
    rfl
  have hev : ∀ i, ∃ mu : ℝ, mu ≤ lam ∧ C.mulVec (f i) = (mu : ℂ) • M⁻¹.mulVec (f i) := by
    intro i
    obtain ⟨mu, hle, hmode⟩ := hX i
    refine ⟨mu, hle, ?_⟩
    have h2 : M.mulVec (C.mulVec (f i)) = (mu : ℂ) • f i := ((isMode_matrix P hn mu (X i)).1 hmode).2
    have h3 := congrArg M⁻¹.mulVec h2
    rw [Matrix.mulVec_smul] at h3
    rw [← h3, mulVec_mulVec (C.mulVec (f i)), Matrix.nonsing_inv_mul _ uM, one_mulVec]
  have hlam : 0 ≤ lam := by
    obtain ⟨mu, hle, he⟩ := hev ⟨0, hn0⟩
    have hfne : f ⟨0, hn0⟩ ≠ 0 := hfli.ne_zero _
    have p1 : 0 < form M⁻¹ (f ⟨0, hn0⟩) := (Complex.lt_def.1 (pM.inv.dotProduct_mulVec_pos hfne)).1
    have p2 := fC0 (f ⟨0, hn0⟩)
    have p3 : form C (f ⟨0, hn0⟩) = mu * form M⁻¹ (f ⟨0, hn0⟩) := by
      unfold form
      rw [he, dotProduct_smul, smul_eq_mul, Complex.re_ofReal_mul]
    rw [p3] at p2
    have : 0 ≤ mu := by
      by_contra hc
      push Not at hc
      nlinarith [mul_neg_of_neg_of_pos hc p1]
    linarith
  obtain ⟨f', hf', hev'⟩ := count_mono (curlOp_hermitian P) pM.inv (curlOp_hermitian P') pM'.inv (lam := lam) (n := n) (fun x hx => by
    have a1 := fC x
    have a2 := mul_le_mul_of_nonneg_left (form_inv_le pM pM' fM x) hlam
    exact (a1.trans hx).trans a2) f hfli hev
  have hx' : ∀ i, M'.mulVec (M'⁻¹.mulVec (f' i)) = f' i := fun i => by
    rw [mulVec_mulVec, Matrix.mul_nonsing_inv _ uM', one_mulVec]
  refine ⟨fun i => padded (M'⁻¹.mulVec (f' i)), fun c hc i => ?_, fun i => ?_⟩
  · refine Fintype.linearIndependent_iff.1 hf' c ?_ i
    have h1 : ∑ i, c i • M'⁻¹.mulVec (f' i) = 0 := by
      funext a
      have := hc a a.2
      rw [Finset.sum_apply, Pi.zero_apply, ← this]
      refine Finset.sum_congr rfl fun i _ => ?_
      rw [Pi.smul_apply, smul_eq_mul, ← congrFun (firstOf_padded (M'⁻¹.mulVec (f' i))) a]
      rfl
    have h2 := congrArg M'.mulVec h1
    rw [mulVec_sum, mulVec_zero] at h2
    rw [← h2]
    exact Finset.sum_congr rfl fun i _ => by rw [Matrix.mulVec_smul, hx']
  · obtain ⟨mu, hle, he⟩ := hev' i
    refine ⟨mu, hle, (isMode_matrix P' hn mu _).2 ?_⟩
    have e := firstOf_padded (M'⁻¹.mulVec (f' i))
    have e' : firstOf (P'.data.N * 2) (padded (M'⁻¹.mulVec (f' i))) = M'⁻¹.mulVec (f' i) := e
    rw [e']
    refine ⟨fun h0 => ?_, ?_⟩
    · have h1 := congrArg M'.mulVec h0
      exact hf'.ne_zero i (((hx' i).symm.trans h1).trans (mulVec_zero M'))
    · show M'.mulVec (C'.mulVec (M'.mulVec (M'⁻¹.mulVec (f' i)))) = (mu : ℂ) • M'.mulVec (M'⁻¹.mulVec (f' i))
      have he' : C'.mulVec (f' i) = (mu : ℂ) • M'⁻¹.mulVec (f' i) := he
      rw [hx' i, he', Matrix.mulVec_smul, hx' i]

/-- Non-vacuity: half the cell of an empty grid of four points filled with a material of permittivity 12 in the plane and permeability 2;
the filled structure therefore has a mode at or below the lowest frequency 1/4 of the empty one. -/
example : Loaded (vacuum 4 (1 / 4)) ⟨4, 1, 1, 1, M3.one, ⟨1 / 4, 0, 0⟩, fun r => if r < 2 then ⟨1 / 12, 1 / 12, 1, 0, 0, 0⟩ else ⟨1, 1, 1, 0, 0, 0⟩,
      some fun r => if r < 2 then ⟨1 / 2, 1 / 2, 1 / 2, 0, 0, 0⟩ else ⟨1, 1, 1, 0, 0, 0⟩⟩ ∧
    ModesUpTo (vacuum 4 (1 / 4)).data ((1 / 4) ^ 2) 1 := by
  have diag : ∀ a b c : ℝ, 1 ≤ a → 1 ≤ b → 1 ≤ c → Denser ⟨1, 1, 1, 0, 0, 0⟩ ⟨1 / a, 1 / b, 1 / c, 0, 0, 0⟩ := by
    intro a b c ha hb hc
    have ha0 : (a : ℂ) ≠ 0 := by exact_mod_cast (by linarith : a ≠ 0)
    have hb0 : (b : ℂ) ≠ 0 := by exact_mod_cast (by linarith : b ≠ 0)
    have hc0 : (c : ℂ) ≠ 0 := by exact_mod_cast (by linarith : c ≠ 0)
    have hform : ∀ (a b c : ℝ) (v : Fin 3 → ℂ), (star v ⬝ᵥ (Tensor.Spec.toMatrix ⟨a, b, c, 0, 0, 0⟩).mulVec v).re =
        a * Complex.normSq (v 0) + b * Complex.normSq (v 1) + c * Complex.normSq (v 2) := by
      intro a b c v
      simp [Tensor.Spec.toMatrix, Matrix.mulVec, dotProduct, Fin.sum_univ_three, Complex.normSq_apply]
      ring
    refine ⟨⟨1, 1, 1, 0, 0, 0⟩, ⟨a, b, c, 0, 0, 0⟩, ?_, ?_, ?_, ?_⟩
    · ext i j
      fin_cases i <;> fin_cases j <;> simp [Tensor.Spec.toMatrix, Matrix.mul_apply, Fin.sum_univ_three]
    · ext i j
      fin_cases i <;> fin_cases j <;> simp [Tensor.Spec.toMatrix, Matrix.mul_apply, Fin.sum_univ_three, ha0, hb0, hc0]
    · refine (posDef_iff _).2 ?_
      have : Tensor.Spec.toMatrix ⟨1, 1, 1, 0, 0, 0⟩ = 1 := by
        ext i j
        fin_cases i <;> fin_cases j <;> simp [Tensor.Spec.toMatrix]
      rw [this]
      exact Matrix.PosDef.one
    · intro v
      rw [hform, hform]
      have h0 := Complex.normSq_nonneg (v 0)
      have h1 := Complex.normSq_nonneg (v 1)
      have h2 := Complex.normSq_nonneg (v 2)
      nlinarith
  have d1 := diag 1 1 1 le_rfl le_rfl le_rfl
  have d2 := diag 12 12 1 (by norm_num) (by norm_num) le_rfl
  have d3 := diag 2 2 2 (by norm_num) (by norm_num) (by norm_num)
  rw [div_one] at d1 d2
  refine ⟨⟨rfl, rfl, rfl, rfl, rfl, rfl, fun r _ => ?_, fun r _ => ?_⟩, ?_⟩
  · show Denser ⟨1, 1, 1, 0, 0, 0⟩ (if r < 2 then _ else _)
    split_ifs
    · exact d2
    · exact d1
  · show Denser ⟨1, 1, 1, 0, 0, 0⟩ (if r < 2 then _ else _)
    split_ifs
    · exact d3
    · exact d1
  · obtain ⟨X, hX⟩ := (vacuum_modes 4 (1 / 4) ((1 / 4) ^ 2)).2 ⟨0, by norm_num, by norm_num [harm]⟩
    refine ⟨fun _ => X, fun c hc i => ?_, fun _ => ⟨_, le_rfl, hX⟩⟩
    obtain rfl : i = 0 := Subsingleton.elim _ _
    by_contra h0
    have hz : firstOf ((vacuum 4 (1 / 4)).data.N * 2) X = 0 := by
      funext a
      have := hc a a.2
      rw [Fin.sum_univ_one] at this
      exact (mul_eq_zero.1 this).resolve_left h0
    exact ((isMode_matrix (vacuum 4 (1 / 4)) Nat.one_pos _ X).1 hX).1 hz

end Mpb.Invariance

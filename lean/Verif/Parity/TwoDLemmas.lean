import Verif.Parity.TwoDSpec
import Verif.Parity.Split
import Verif.Parity.Physical
import Verif.Perturb.Lemmas

/-! # Two-dimensional problems: the operators do not mix the two polarizations -/

namespace Mpb.Parity
open Mpb.Maxwell Mpb.Maxwell.Spec Mpb.Invariance Mpb.Invariance.Spec Mpb.Perturb Spec
open Matrix

theorem kData_flat {K : V3 ℝ} (h : K.z = 0) : (kData K).m.x = 0 ∧ (kData K).m.y = 0 ∧ (kData K).n.z = 0 ∧ (kData K).m.z ≠ 0 ∧
    ((kData K).n.x ≠ 0 ∨ (kData K).n.y ≠ 0) := by
  have hn := (kData_mirrorZ K).2.1
  have hb := kData_isBasis K
  have hm : (kData K).m.x = 0 ∧ (kData K).m.y = 0 := by
    unfold kData
    dsimp only
    by_cases h1 : K.x * K.x + K.y * K.y + K.z * K.z = 0
    · rw [if_pos h1]; exact ⟨rfl, rfl⟩
    · have h2 : ¬ (K.x = 0 ∧ K.y = 0) := fun h2 => h1 (by simp [h2.1, h2.2, h])
      rw [if_neg h1, if_neg h2]
      simp [V3.cross, Maxwell.normalize, h]
  refine ⟨hm.1, hm.2, hn, fun h0 => ?_, ?_⟩
  · have := hb.mm
    rw [hm.1, hm.2, h0] at this
    norm_num at this
  · by_contra hc
    push Not at hc
    have := hb.nn
    rw [hc.1, hc.2, hn] at this
    norm_num at this

theorem gm_flat {R : M3 ℝ} (h : R.c2.x = 0 ∧ R.c2.y = 0) : (Velocity.latticeGm R).c0.z = 0 ∧ (Velocity.latticeGm R).c1.z = 0 := by
  simp [Velocity.latticeGm, MpbData.inverse, M3.transpose, V3.cross, V3.smul, h.1, h.2]

theorem wave_flat {P : Problem} (h : TwoD P) (x y : ℕ) : (P.wave x y 0).z = 0 := by
  have hg := gm_flat h.lattice
  unfold Problem.wave waveVec
  rw [h.nz, harm_one]
  simp [V3.smul, hg.1, hg.2, h.k]

theorem kpg_flat {P : Problem} (h : TwoD P) {G : ℕ} (hG : G < P.data.N) : ∃ K : V3 ℝ, K.z = 0 ∧ P.data.kpg G = kData K := by
  obtain ⟨x, hx, y, hy, z, hz, rfl⟩ := index3 (nx := P.nx) (ny := P.ny) (nz := P.nz) hG
  have hz0 : z = 0 := by have := h.nz; omega
  subst hz0
  exact ⟨_, wave_flat h x y, data_kpg P hx hy hz⟩

/-- The plane vectors of a two-dimensional problem. -/
theorem exists_waves {P : Problem} (h : TwoD P) : ∃ K : ℕ → V3 ℝ, ∀ G < P.data.N, (K G).z = 0 ∧ P.data.kpg G = kData (K G) := by
  have : ∀ G, ∃ K : V3 ℝ, G < P.data.N → K.z = 0 ∧ P.data.kpg G = kData K := fun G => by
    by_cases hG : G < P.data.N
    · obtain ⟨K, hK⟩ := kpg_flat h hG
      exact ⟨K, fun _ => hK⟩
    · exact ⟨⟨0, 0, 0⟩, fun h => absurd h hG⟩
  choose K hK using this
  exact ⟨K, hK⟩

theorem n_eq {P : Problem} (h : TwoD P) : P.data.N = P.nx * P.ny := by
  show P.nx * P.ny * P.nz = _
  rw [h.nz, Nat.mul_one]

/-- A vector field along `z`, and one in the plane. -/
def Along (N : ℕ) (f : ℕ → V3 ℂ) : Prop := ∀ r < N, (f r).x = 0 ∧ (f r).y = 0
def InPlane (N : ℕ) (f : ℕ → V3 ℂ) : Prop := ∀ r < N, (f r).z = 0

theorem transform_along {W : ℕ → ℕ → ℂ} {N : ℕ} {a : ℕ → V3 ℂ} (h : Along N a) : Along N (transform W N a) := by
  intro r _
  unfold transform
  dsimp only
  exact ⟨Finset.sum_eq_zero fun j hj => by rw [(h j (Finset.mem_range.1 hj)).1, mul_zero],
    Finset.sum_eq_zero fun j hj => by rw [(h j (Finset.mem_range.1 hj)).2, mul_zero]⟩

theorem transform_inPlane {W : ℕ → ℕ → ℂ} {N : ℕ} {a : ℕ → V3 ℂ} (h : InPlane N a) : InPlane N (transform W N a) := by
  intro r _
  unfold transform
  dsimp only
  exact Finset.sum_eq_zero fun j hj => by rw [h j (Finset.mem_range.1 hj), mul_zero]

theorem plain_along {P : Problem} (h : TwoD P) {x : ℕ → ℂ × ℂ} (hx : ∀ G < P.data.N, (x G).2 = 0) : Along P.data.N (plainField P.data x) := by
  refine transform_along fun G hG => ?_
  obtain ⟨K, hK, e⟩ := kpg_flat h hG
  obtain ⟨h1, h2, -⟩ := kData_flat hK
  rw [e]
  simp [cart, toC, V3.smul, hx G hG, h1, h2]

theorem plain_inPlane {P : Problem} (h : TwoD P) {x : ℕ → ℂ × ℂ} (hx : ∀ G < P.data.N, (x G).1 = 0) : InPlane P.data.N (plainField P.data x) := by
  refine transform_inPlane fun G hG => ?_
  obtain ⟨K, hK, e⟩ := kpg_flat h hG
  obtain ⟨-, -, h3, -⟩ := kData_flat hK
  rw [e]
  simp [cart, toC, V3.smul, hx G hG, h3]

theorem curl_inPlane {P : Problem} {K : ℕ → V3 ℝ} (hK : ∀ G < P.data.N, (K G).z = 0 ∧ P.data.kpg G = kData (K G)) {x : ℕ → ℂ × ℂ}
    (hx : ∀ G < P.data.N, (x G).2 = 0) : InPlane P.data.N (curlField P.data K x) := by
  refine transform_inPlane fun G hG => ?_
  obtain ⟨h1, h2, -⟩ := kData_flat (hK G hG).1
  rw [(hK G hG).2]
  simp [cart, toC, V3.smul, V3.cross, hx G hG, h1, h2]

theorem curl_along {P : Problem} {K : ℕ → V3 ℝ} (hK : ∀ G < P.data.N, (K G).z = 0 ∧ P.data.kpg G = kData (K G)) {x : ℕ → ℂ × ℂ}
    (hx : ∀ G < P.data.N, (x G).1 = 0) : Along P.data.N (curlField P.data K x) := by
  refine transform_along fun G hG => ?_
  obtain ⟨-, -, h3, -⟩ := kData_flat (hK G hG).1
  rw [(hK G hG).2]
  simp [cart, toC, V3.smul, V3.cross, hx G hG, h3, (hK G hG).1]

theorem gridForm_mixed {N : ℕ} {M : ℕ → HMat} (hM : ∀ r < N, Flat (M r)) {a b : ℕ → V3 ℂ} (h : Along N a ∧ InPlane N b ∨ InPlane N a ∧ Along N b) :
    gridForm N M a b = 0 := by
  unfold gridForm
  rw [Finset.sum_eq_zero, mul_zero]
  intro r hr
  have hr := Finset.mem_range.1 hr
  rw [herm_mulVec]
  rcases h with ⟨h1, h2⟩ | ⟨h1, h2⟩
  · rw [(h1 r hr).1, (h1 r hr).2, h2 r hr, (hM r hr).1, (hM r hr).2]; simp
  · rw [(h2 r hr).1, (h2 r hr).2, h1 r hr, (hM r hr).1, (hM r hr).2]; simp

theorem gridForm_along {N : ℕ} {M M' : ℕ → HMat} (hM : ∀ r < N, (M r).m22 = (M' r).m22) {a b : ℕ → V3 ℂ} (ha : Along N a) (hb : Along N b) :
    gridForm N M a b = gridForm N M' a b := by
  unfold gridForm
  refine congrArg _ (Finset.sum_congr rfl fun r hr => ?_)
  have hr := Finset.mem_range.1 hr
  rw [herm_mulVec, herm_mulVec, (ha r hr).1, (ha r hr).2, (hb r hr).1, (hb r hr).2, hM r hr]
  simp

theorem gridForm_inPlane {N : ℕ} {M M' : ℕ → HMat} (hM : ∀ r < N, (M r).m00 = (M' r).m00 ∧ (M r).m11 = (M' r).m11 ∧ (M r).m01 = (M' r).m01)
    {a b : ℕ → V3 ℂ} (ha : InPlane N a) (hb : InPlane N b) : gridForm N M a b = gridForm N M' a b := by
  unfold gridForm
  refine congrArg _ (Finset.sum_congr rfl fun r hr => ?_)
  have hr := Finset.mem_range.1 hr
  rw [herm_mulVec, herm_mulVec, ha r hr, hb r hr, (hM r hr).1, (hM r hr).2.1, (hM r hr).2.2]
  simp

/-- The unit vector with index `i` as pairs: only the first, or only the second amplitudes. -/
theorem unit_even {N : ℕ} {i : Fin (N * 2)} (h : i.1 % 2 = 0) (G : ℕ) : (pairs (padded (Pi.single i (1 : ℂ))) G).2 = 0 := by
  show padded (Pi.single i (1 : ℂ)) (G * 2 + 1) = 0
  unfold padded
  split
  · rw [Pi.single_apply, if_neg]
    intro e
    have := congrArg Fin.val e
    simp only at this
    omega
  · rfl

theorem unit_odd {N : ℕ} {i : Fin (N * 2)} (h : i.1 % 2 = 1) (G : ℕ) : (pairs (padded (Pi.single i (1 : ℂ))) G).1 = 0 := by
  show padded (Pi.single i (1 : ℂ)) (G * 2) = 0
  unfold padded
  split
  · rw [Pi.single_apply, if_neg]
    intro e
    have := congrArg Fin.val e
    simp only at this
    omega
  · rfl

theorem curl_mixed {P : Problem} (h : TwoD P) (i j : Fin (P.data.N * 2)) (hij : i.1 % 2 ≠ j.1 % 2) : (curlOp P).mat i j = 0 := by
  obtain ⟨K, hK⟩ := exists_waves h
  rw [entry_curl P (K := K) fun G hG => by rw [(hK G hG).2]; exact kData_isBasis _]
  refine gridForm_mixed (fun r hr => h.eps r (by rwa [← n_eq h])) ?_
  rcases Nat.mod_two_eq_zero_or_one i with hi | hi
  · have hj : j.1 % 2 = 1 := by omega
    exact Or.inr ⟨curl_inPlane hK fun G _ => unit_even hi G, curl_along hK fun G _ => unit_odd hj G⟩
  · have hj : j.1 % 2 = 0 := by omega
    exact Or.inl ⟨curl_along hK fun G _ => unit_odd hi G, curl_inPlane hK fun G _ => unit_even hj G⟩

theorem mu_mixed {P : Problem} (h : TwoD P) (i j : Fin (P.data.N * 2)) (hij : i.1 % 2 ≠ j.1 % 2) : (muOp P).mat i j = 0 := by
  rw [entry_mu P]
  refine gridForm_mixed (fun r hr => h.mu r (by rwa [← n_eq h])) ?_
  rcases Nat.mod_two_eq_zero_or_one i with hi | hi
  · have hj : j.1 % 2 = 1 := by omega
    exact Or.inl ⟨plain_along h fun G _ => unit_even hi G, plain_inPlane h fun G _ => unit_odd hj G⟩
  · have hj : j.1 % 2 = 0 := by omega
    exact Or.inr ⟨plain_inPlane h fun G _ => unit_odd hi G, plain_along h fun G _ => unit_even hj G⟩

/-- Keep the entries with index of remainder `q` modulo 2. -/
def keep (m q : ℕ) : (Fin m → ℂ) →ₗ[ℂ] (Fin m → ℂ) where
  toFun x i := if i.1 % 2 = q then x i else 0
  map_add' x y := by funext i; simp only [Pi.add_apply]; split <;> simp
  map_smul' c x := by funext i; simp only [Pi.smul_apply, RingHom.id_apply]; split <;> simp

theorem keep_apply {m q : ℕ} (x : Fin m → ℂ) (i : Fin m) : keep m q x i = if i.1 % 2 = q then x i else 0 := rfl

theorem keep_keep {m q : ℕ} (x : Fin m → ℂ) : keep m q (keep m q x) = keep m q x := by
  funext i
  rw [keep_apply, keep_apply]
  split <;> simp

theorem keep_mulVec {m : ℕ} {A : Matrix (Fin m) (Fin m) ℂ} (hA : ∀ i j : Fin m, i.1 % 2 ≠ j.1 % 2 → A i j = 0) (q : ℕ) (x : Fin m → ℂ) :
    A.mulVec (keep m q x) = keep m q (A.mulVec x) := by
  funext i
  rw [keep_apply]
  simp only [Matrix.mulVec, dotProduct]
  by_cases hi : i.1 % 2 = q
  · rw [if_pos hi]
    refine Finset.sum_congr rfl fun j _ => ?_
    rw [keep_apply]
    by_cases hj : j.1 % 2 = q
    · rw [if_pos hj]
    · rw [hA i j (by omega)]; simp
  · rw [if_neg hi]
    refine Finset.sum_eq_zero fun j _ => ?_
    rw [keep_apply]
    by_cases hj : j.1 % 2 = q
    · rw [hA i j (by omega), zero_mul]
    · rw [if_neg hj, mul_zero]

theorem sub_keep {m : ℕ} (x : Fin m → ℂ) : x - keep m 0 x = keep m 1 x := by
  funext i
  rw [Pi.sub_apply, keep_apply, keep_apply]
  rcases Nat.mod_two_eq_zero_or_one i with hi | hi <;> simp [hi]

/-- The equation of the modes. -/
def EvEq (P : Problem) (mu : ℝ) (x : Fin (P.data.N * 2) → ℂ) : Prop :=
  (muOp P).mat.mulVec ((curlOp P).mat.mulVec ((muOp P).mat.mulVec x)) = (mu : ℂ) • (muOp P).mat.mulVec x

theorem evEq_keep {P : Problem} (h : TwoD P) {mu : ℝ} {x : Fin (P.data.N * 2) → ℂ} (hx : EvEq P mu x) (q : ℕ) : EvEq P mu (keep _ q x) := by
  unfold EvEq at *
  rw [keep_mulVec (mu_mixed h), keep_mulVec (curl_mixed h), keep_mulVec (mu_mixed h), hx, LinearMap.map_smul]

theorem amplitude_TE {P : Problem} (h : TwoD P) (X : ℕ → ℂ) : IsTE P X ↔ ∀ G < P.data.N, X (G * 2 + 1) = 0 := by
  unfold IsTE
  rw [← n_eq h]
  refine forall_congr' fun G => forall_congr' fun hG => ?_
  obtain ⟨K, hK, e⟩ := kpg_flat h hG
  obtain ⟨h1, h2, h3, h4, h5⟩ := kData_flat hK
  unfold amplitude
  rw [e]
  simp only [cart, toC, V3.smul, V3.map, V3.add_x, V3.add_y, h1, h2, Complex.ofReal_zero, mul_zero, zero_add, mul_eq_zero, Complex.ofReal_eq_zero]
  tauto

theorem amplitude_TM {P : Problem} (h : TwoD P) (X : ℕ → ℂ) : IsTM P X ↔ ∀ G < P.data.N, X (G * 2) = 0 := by
  unfold IsTM
  rw [← n_eq h]
  refine forall_congr' fun G => forall_congr' fun hG => ?_
  obtain ⟨K, hK, e⟩ := kpg_flat h hG
  obtain ⟨h1, h2, h3, h4, h5⟩ := kData_flat hK
  unfold amplitude
  rw [e]
  simp only [cart, toC, V3.smul, V3.map, V3.add_z, h3, Complex.ofReal_zero, mul_zero, add_zero, mul_eq_zero, Complex.ofReal_eq_zero]
  tauto

theorem TE_keep {P : Problem} (h : TwoD P) (X : ℕ → ℂ) : IsTE P X ↔ keep _ 0 (firstOf (P.data.N * 2) X) = firstOf _ X := by
  rw [amplitude_TE h]
  constructor
  · intro hX
    funext i
    rw [keep_apply]
    split
    · rfl
    · have := hX (i.1 / 2) (by have := i.2; omega)
      rw [show i.1 / 2 * 2 + 1 = i.1 by omega] at this
      exact this.symm
  · intro hX G hG
    have := congrFun hX ⟨G * 2 + 1, by omega⟩
    rw [keep_apply, if_neg (by simp only; omega)] at this
    exact this.symm

theorem TM_keep {P : Problem} (h : TwoD P) (X : ℕ → ℂ) : IsTM P X ↔ keep _ 1 (firstOf (P.data.N * 2) X) = firstOf _ X := by
  rw [amplitude_TM h]
  constructor
  · intro hX
    funext i
    rw [keep_apply]
    split
    · rfl
    · have := hX (i.1 / 2) (by have := i.2; omega)
      rw [show i.1 / 2 * 2 = i.1 by omega] at this
      exact this.symm
  · intro hX G hG
    have := congrFun hX ⟨G * 2, by omega⟩
    rw [keep_apply, if_neg (by simp only; omega)] at this
    exact this.symm

end Mpb.Parity

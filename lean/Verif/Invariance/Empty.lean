import Verif.Invariance.EmptySpec
import Verif.Invariance.Slope
import Verif.Invariance.Fold

/-!
# C115: the bands of the empty lattice, and bounds from uniform media
-/

namespace Mpb.Invariance
open Mpb.Maxwell Mpb.Maxwell.Spec Spec

/-- The vector `k + G` of planewave number `G`. -/
noncomputable def waveAt (P : Problem) (G : ℕ) : V3 ℝ := P.wave (G / P.nz / P.ny) (G / P.nz % P.ny) (G % P.nz)

theorem waveAt_basis (P : Problem) {G : ℕ} (hG : G < P.data.N) : IsBasis (waveAt P G) (P.data.kpg G) := by
  obtain ⟨K, hK, hw⟩ := data_isBasis P
  obtain ⟨x, hx, y, hy, z, hz, rfl⟩ := index3 (nx := P.nx) (ny := P.ny) (nz := P.nz) hG
  unfold waveAt
  rw [split_x _ hy hz, split_y _ hy hz, split_z _ hz, ← hw x hx y hy z hz]
  exact hK _ hG

theorem bandMu_uniform (P : Problem) {M : ℕ → HMat} {c : ℝ} (hM : ∀ r < P.data.N, M r = ⟨c, c, c, 0, 0, 0⟩) (x : ℕ → ℂ × ℂ) {G : ℕ} (hG : G < P.data.N) :
    bandMu P.data M x G = ((c : ℂ) * (x G).1, (c : ℂ) * (x G).2) := by
  unfold bandMu colOp
  rw [Target.homogeneous_chain (data_inverse P) hM _ hG]
  have hN : ((P.data.N : ℝ) : ℂ) ≠ 0 := by exact_mod_cast (by omega : P.data.N ≠ 0)
  have e : V3.smul ((P.data.N * c : ℝ) : ℂ) (t2c (P.data.kpg G) (x G).1 (x G).2) =
      t2c (P.data.kpg G) ((P.data.N : ℂ) * c * (x G).1) ((P.data.N : ℂ) * c * (x G).2) := by
    ext <;> apply Complex.ext <;> simp [t2c] <;> ring
  rw [e, C02_roundtrip _ _ (waveAt_basis P hG)]
  push_cast at hN ⊢
  refine Prod.ext ?_ ?_ <;> dsimp only <;> field_simp

theorem bandOp_uniform (P : Problem) {c : ℝ} (he : ∀ r < P.data.N, P.epsInv r = ⟨c, c, c, 0, 0, 0⟩) (x : ℕ → ℂ × ℂ) {G : ℕ} (hG : G < P.data.N) :
    bandOp P.data x G = ((((c * V3.dot (waveAt P G) (waveAt P G) : ℝ)) : ℂ) * (x G).1, (((c * V3.dot (waveAt P G) (waveAt P G) : ℝ)) : ℂ) * (x G).2) :=
  Target.homogeneous_maxwell (d := { P.data with muInv := none }) (data_inverse P) rfl he (K := waveAt P) (fun _ hG => waveAt_basis P hG) x hG

/-- In a uniform medium a field is a mode exactly if all its planewaves have the same `|k + G|²`. -/
theorem uniform_mode (P : Problem) (hn : 0 < P.nfb) {e u : ℝ} (he0 : 0 < e) (hu0 : 0 < u) (he : ∀ r < P.data.N, P.epsInv r = scalar e)
    (hu : ∀ r < P.data.N, invMu P r = scalar u) (lam : ℝ) (X : ℕ → ℂ) :
    IsMode P.data lam X ↔ (∃ a < P.data.N * 2, X a ≠ 0) ∧ ∀ a < P.data.N * 2, X a ≠ 0 → V3.dot (waveAt P (a / 2)) (waveAt P (a / 2)) = e * u * lam := by
  have h0 : (∃ G < P.data.N, band 1 X 0 G ≠ (0, 0)) ↔ ∃ a < P.data.N * 2, X a ≠ 0 := by
    constructor
    · rintro ⟨G, hG, h⟩
      by_contra hc
      push Not at hc
      apply h
      rw [band1, hc _ (by omega), hc _ (by omega)]
    · rintro ⟨a, ha, h⟩
      refine ⟨a / 2, by omega, fun hb => h ?_⟩
      rw [band1] at hb
      obtain ⟨h1, h2⟩ := Prod.mk.injEq .. ▸ hb
      rcases Nat.mod_two_eq_zero_or_one a with hm | hm
      · rwa [show a / 2 * 2 = a by omega] at h1
      · rwa [show a / 2 * 2 + 1 = a by omega] at h2
  rw [isMode_iff _ hn, h0]
  refine and_congr_right fun _ => ?_
  have hM : ∀ x, bandMaxwell P.data x = bandMuinv P.data (bandOp P.data (bandMuinv P.data x)) := by
    intro x
    unfold bandMaxwell bandMuinv
    cases P.data.muInv <;> rfl
  have hmu : ∀ (x : ℕ → ℂ × ℂ), ∀ G < P.data.N, bandMuinv P.data x G = (((1 / u : ℝ) : ℂ) * (x G).1, ((1 / u : ℝ) : ℂ) * (x G).2) := fun x G hG => by
    rw [bandMuinv_eq P x hG, bandMu_uniform P hu x hG]
  have key : ∀ (K2 : ℝ) (z : ℂ), ((1 / u : ℝ) : ℂ) * (((1 / e * K2 : ℝ) : ℂ) * (((1 / u : ℝ) : ℂ) * z)) = (lam : ℂ) * (((1 / u : ℝ) : ℂ) * z) ↔
      (z ≠ 0 → K2 = e * u * lam) := by
    intro K2 z
    have h1 : ((1 / u : ℝ) : ℂ) * (((1 / e * K2 : ℝ) : ℂ) * (((1 / u : ℝ) : ℂ) * z)) = ((1 / u * (1 / e * K2) * (1 / u) : ℝ) : ℂ) * z := by push_cast; ring
    have h2 : (lam : ℂ) * (((1 / u : ℝ) : ℂ) * z) = ((lam * (1 / u) : ℝ) : ℂ) * z := by push_cast; ring
    rw [h1, h2]
    have h3 : 1 / u * (1 / e * K2) * (1 / u) = lam * (1 / u) ↔ K2 = e * u * lam := by
      field_simp
    constructor
    · intro h hz
      exact h3.1 (Complex.ofReal_injective (mul_right_cancel₀ hz h))
    · intro h
      by_cases hz : z = 0
      · rw [hz, mul_zero, mul_zero]
      · rw [h3.2 (h hz)]
  have hG : ∀ G < P.data.N, (bandMaxwell P.data (band 1 X 0) G = ((lam : ℂ) * (bandMuinv P.data (band 1 X 0) G).1, (lam : ℂ) * (bandMuinv P.data (band 1 X 0) G).2) ↔
      (X (G * 2) ≠ 0 → V3.dot (waveAt P G) (waveAt P G) = e * u * lam) ∧ (X (G * 2 + 1) ≠ 0 → V3.dot (waveAt P G) (waveAt P G) = e * u * lam)) := by
    intro G hG
    rw [hM, hmu _ G hG, bandOp_uniform P he _ hG, hmu _ G hG, band1, Prod.mk.injEq]
    exact and_congr (key _ _) (key _ _)
  constructor
  · intro h a ha hX
    have := (hG (a / 2) (by omega)).1 (h _ (by omega))
    rcases Nat.mod_two_eq_zero_or_one a with hm | hm
    · exact this.1 (by rwa [show a / 2 * 2 = a by omega])
    · exact this.2 (by rwa [show a / 2 * 2 + 1 = a by omega])
  · intro h G hG'
    refine (hG G hG').2 ⟨fun hX => ?_, fun hX => ?_⟩
    · have := h (G * 2) (by omega) hX
      rwa [show G * 2 / 2 = G by omega] at this
    · have := h (G * 2 + 1) (by omega) hX
      rwa [show (G * 2 + 1) / 2 = G by omega] at this

open Classical in
/-- Counting in terms of addresses. -/
theorem uniform_count (P : Problem) (hn : 0 < P.nfb) {e u : ℝ} (he0 : 0 < e) (hu0 : 0 < u) (he : ∀ r < P.data.N, P.epsInv r = scalar e)
    (hu : ∀ r < P.data.N, invMu P r = scalar u) (lam : ℝ) (n : ℕ) :
    ModesUpTo P.data lam n ↔ n ≤ ((Finset.range (P.data.N * 2)).filter fun a => V3.dot (waveAt P (a / 2)) (waveAt P (a / 2)) ≤ e * u * lam).card := by
  set S := (Finset.range (P.data.N * 2)).filter fun a => V3.dot (waveAt P (a / 2)) (waveAt P (a / 2)) ≤ e * u * lam with hS
  have heu : 0 < e * u := mul_pos he0 hu0
  constructor
  · rintro ⟨X, hli, hX⟩
    have hlin : LinearIndependent ℂ (fun i (a : S) => X i a) := by
      rw [Fintype.linearIndependent_iff]
      intro c hc
      refine hli c fun a ha => ?_
      by_cases haS : a ∈ S
      · have := congrFun hc ⟨a, haS⟩
        simpa [Finset.sum_apply] using this
      · refine Finset.sum_eq_zero fun i _ => ?_
        obtain ⟨mu, hle, hmode⟩ := hX i
        have : X i a = 0 := by
          by_contra hne
          apply haS
          rw [hS, Finset.mem_filter, Finset.mem_range]
          refine ⟨ha, ?_⟩
          rw [((uniform_mode P hn he0 hu0 he hu mu (X i)).1 hmode).2 a ha hne]
          exact mul_le_mul_of_nonneg_left hle heu.le
        rw [this, mul_zero]
    have := hlin.fintype_card_le_finrank
    simpa using this
  · intro h
    have hmem : ∀ a ∈ S, a < P.data.N * 2 ∧ V3.dot (waveAt P (a / 2)) (waveAt P (a / 2)) ≤ e * u * lam := fun a ha => by
      rwa [hS, Finset.mem_filter, Finset.mem_range] at ha
    obtain ⟨f⟩ : Nonempty (Fin n ↪ S) := Function.Embedding.nonempty_of_card_le (by simpa using h)
    refine ⟨fun i a => if a = (f i : ℕ) then 1 else 0, fun c hc i => ?_, fun i => ?_⟩
    · have hi := hmem _ (f i).2
      have := hc (f i) hi.1
      rw [Finset.sum_eq_single i] at this
      · simpa using this
      · intro j _ hj
        have : (f i : ℕ) ≠ f j := fun hh => hj (f.injective (Subtype.ext hh.symm))
        simp [this]
      · simp
    · have hi := hmem _ (f i).2
      refine ⟨V3.dot (waveAt P ((f i : ℕ) / 2)) (waveAt P ((f i : ℕ) / 2)) / (e * u), by rw [div_le_iff₀ heu]; linarith [hi.2], ?_⟩
      rw [uniform_mode P hn he0 hu0 he hu]
      refine ⟨⟨_, hi.1, by simp⟩, fun a _ hne => ?_⟩
      have : a = (f i : ℕ) := by
        by_contra hh
        simp [hh] at hne
      rw [this]
      field_simp

/-! ### The numbers of planewaves -/

theorem kept_iff (n : ℕ) (g : ℤ) : g ∈ kept n ↔ ∃ x < n, g = -harm n x := by
  unfold kept harm
  constructor
  · intro h
    split_ifs at h with h1
    · rw [Finset.mem_singleton] at h
      exact ⟨0, by omega, by rw [if_neg (by omega)]; omega⟩
    · rw [Finset.mem_Icc] at h
      rcases le_or_gt g 0 with hg | hg
      · exact ⟨(-g).toNat, by omega, by rw [if_neg (by omega)]; omega⟩
      · exact ⟨(n - g).toNat, by omega, by rw [if_pos (by omega)]; omega⟩
  · rintro ⟨x, hx, rfl⟩
    split_ifs with h1 h2 h2
    · rw [Finset.mem_singleton]; omega
    · rw [Finset.mem_singleton]; omega
    · rw [Finset.mem_Icc]; omega
    · rw [Finset.mem_Icc]; omega

theorem harm_inj {n x y : ℕ} (hx : x < n) (hy : y < n) (h : harm n x = harm n y) : x = y := by
  unfold harm at h
  split_ifs at h <;> omega

theorem wave_dot (P : Problem) (hd : P.Rm.det ≠ 0) (x y z : ℕ) : V3.dot P.Rm.c0 (P.wave x y z) = P.k.x + ((-harm P.nx x : ℤ) : ℝ) ∧
    V3.dot P.Rm.c1 (P.wave x y z) = P.k.y + ((-harm P.ny y : ℤ) : ℝ) ∧ V3.dot P.Rm.c2 (P.wave x y z) = P.k.z + ((-harm P.nz z : ℤ) : ℝ) := by
  obtain ⟨h1, h2, h3, h4, h5, h6, h7, h8, h9⟩ := Velocity.reciprocal_of_inverse P.Rm hd
  unfold Problem.wave waveVec
  dsimp only
  have e : ∀ (r a b c : V3 ℝ) (s t u : ℝ), V3.dot r (V3.smul s a + V3.smul t b + V3.smul u c) = s * V3.dot r a + t * V3.dot r b + u * V3.dot r c := by
    intro r a b c s t u
    simp [V3.dot]; ring
  rw [e, e, e]
  simp only [h1, h2, h3, h4, h5, h6, h7, h8, h9]
  refine ⟨by ring, by ring, by ring⟩

theorem dot_unique (R : M3 ℝ) (hd : R.det ≠ 0) {K K' : V3 ℝ} (h0 : V3.dot R.c0 K = V3.dot R.c0 K') (h1 : V3.dot R.c1 K = V3.dot R.c1 K')
    (h2 : V3.dot R.c2 K = V3.dot R.c2 K') : K = K' := by
  have hr := Velocity.reciprocal_of_inverse R hd
  have e : R.transpose.mulVec K = R.transpose.mulVec K' := by
    ext
    · exact h0
    · exact h1
    · exact h2
  rw [← Velocity.mulVec_reciprocal hr hd K, e, Velocity.mulVec_reciprocal hr hd K']

open Classical in
theorem count_waves (P : Problem) (hd : P.Rm.det ≠ 0) (q : ℝ) :
    ((Finset.range (P.data.N * 2)).filter fun a => V3.dot (waveAt P (a / 2)) (waveAt P (a / 2)) ≤ q).card = 2 * (waves P q).ncard := by
  set T := (Finset.range P.data.N).filter fun G => V3.dot (waveAt P G) (waveAt P G) ≤ q with hT
  have e1 : ((Finset.range (P.data.N * 2)).filter fun a => V3.dot (waveAt P (a / 2)) (waveAt P (a / 2)) ≤ q).card = (T ×ˢ Finset.range 2).card := by
    refine Finset.card_nbij' (fun a => (a / 2, a % 2)) (fun t => t.1 * 2 + t.2) ?_ ?_ ?_ ?_
    · intro a ha
      rw [Finset.mem_coe, Finset.mem_filter, Finset.mem_range] at ha
      rw [Finset.mem_coe, Finset.mem_product, hT, Finset.mem_filter, Finset.mem_range, Finset.mem_range]
      exact ⟨⟨by dsimp only; omega, ha.2⟩, by dsimp only; omega⟩
    · rintro ⟨G, c⟩ h
      rw [Finset.mem_coe, Finset.mem_product, hT, Finset.mem_filter, Finset.mem_range, Finset.mem_range] at h
      rw [Finset.mem_coe, Finset.mem_filter, Finset.mem_range]
      dsimp only at h ⊢
      rw [show (G * 2 + c) / 2 = G by omega]
      exact ⟨by omega, h.1.2⟩
    · intro a _
      dsimp only; omega
    · rintro ⟨G, c⟩ h
      rw [Finset.mem_coe, Finset.mem_product, Finset.mem_range] at h
      dsimp only at h ⊢
      exact Prod.ext (by dsimp only; omega) (by dsimp only; omega)
  set φ : ℕ → V3 ℤ := fun G => ⟨-harm P.nx (G / P.nz / P.ny), -harm P.ny (G / P.nz % P.ny), -harm P.nz (G % P.nz)⟩ with hφ
  have hφc : ∀ x < P.nx, ∀ y < P.ny, ∀ z < P.nz, φ ((x * P.ny + y) * P.nz + z) = ⟨-harm P.nx x, -harm P.ny y, -harm P.nz z⟩ := by
    intro x hx y hy z hz
    rw [hφ]
    dsimp only
    rw [split_x _ hy hz, split_y _ hy hz, split_z _ hz]
  have hwc : ∀ x < P.nx, ∀ y < P.ny, ∀ z < P.nz, waveAt P ((x * P.ny + y) * P.nz + z) = P.wave x y z := by
    intro x hx y hy z hz
    unfold waveAt
    rw [split_x _ hy hz, split_y _ hy hz, split_z _ hz]
  have e2 : waves P q = φ '' (T : Set ℕ) := by
    ext g
    constructor
    · rintro ⟨hx, hy, hz, K, k0, k1, k2, hK⟩
      obtain ⟨x, hx, ex⟩ := (kept_iff _ _).1 hx
      obtain ⟨y, hy, ey⟩ := (kept_iff _ _).1 hy
      obtain ⟨z, hz, ez⟩ := (kept_iff _ _).1 hz
      have hKw : P.wave x y z = K := by
        obtain ⟨w0, w1, w2⟩ := wave_dot P hd x y z
        refine dot_unique P.Rm hd ?_ ?_ ?_
        · rw [w0, k0, ex]
        · rw [w1, k1, ey]
        · rw [w2, k2, ez]
      refine ⟨(x * P.ny + y) * P.nz + z, ?_, ?_⟩
      · rw [Finset.mem_coe, hT, Finset.mem_filter, Finset.mem_range]
        refine ⟨rowMajor_lt (rowMajor_lt hx hy) hz, ?_⟩
        rw [hwc x hx y hy z hz, hKw]
        exact hK
      · rw [hφc x hx y hy z hz, ← ex, ← ey, ← ez]
    · rintro ⟨G, hG, rfl⟩
      rw [Finset.mem_coe, hT, Finset.mem_filter, Finset.mem_range] at hG
      obtain ⟨x, hx, y, hy, z, hz, rfl⟩ := index3 (nx := P.nx) (ny := P.ny) (nz := P.nz) hG.1
      rw [hφc x hx y hy z hz]
      have h := hG.2
      rw [hwc x hx y hy z hz] at h
      obtain ⟨w0, w1, w2⟩ := wave_dot P hd x y z
      exact ⟨(kept_iff _ _).2 ⟨x, hx, rfl⟩, (kept_iff _ _).2 ⟨y, hy, rfl⟩, (kept_iff _ _).2 ⟨z, hz, rfl⟩, _, w0, w1, w2, h⟩
  have hinj : Set.InjOn φ (T : Set ℕ) := by
    intro G hG G' hG' h
    rw [Finset.mem_coe, hT, Finset.mem_filter, Finset.mem_range] at hG hG'
    obtain ⟨x, hx, y, hy, z, hz, rfl⟩ := index3 (nx := P.nx) (ny := P.ny) (nz := P.nz) hG.1
    obtain ⟨x', hx', y', hy', z', hz', rfl⟩ := index3 (nx := P.nx) (ny := P.ny) (nz := P.nz) hG'.1
    rw [hφc x hx y hy z hz, hφc x' hx' y' hy' z' hz', V3.mk.injEq, neg_inj, neg_inj, neg_inj] at h
    rw [harm_inj hx hx' h.1, harm_inj hy hy' h.2.1, harm_inj hz hz' h.2.2]
  rw [e1, e2, Set.ncard_image_of_injOn hinj, Set.ncard_coe_finset, Finset.card_product, Finset.card_range, Nat.mul_comm]

/-- **C115**: the bands of the empty lattice.  In a uniform medium, on every grid, lattice and at every wavevector, there are `n` independent modes of squared
frequency up to `lam` exactly if at least `n / 2` of the kept planewaves have `|k + G|² ≤ ε μ lam`: the bands are `|k + G| / √(ε μ)`, each twice. -/
theorem C115_empty (P : Problem) (hn : 0 < P.nfb) (hd : P.Rm.det ≠ 0) {e u : ℝ} (he0 : 0 < e) (hu0 : 0 < u)
    (he : ∀ r < P.nx * P.ny * P.nz, P.epsInv r = scalar e) (hu : ∀ r < P.nx * P.ny * P.nz, invMu P r = scalar u) (lam : ℝ) (n : ℕ) :
    ModesUpTo P.data lam n ↔ n ≤ 2 * (waves P (e * u * lam)).ncard := by
  rw [uniform_count P hn he0 hu0 he hu, count_waves P hd]

/-- **C115**: the bands of any structure lie between those of the uniform media with the largest and the smallest permittivity and permeability in it. -/
theorem C115_between (P : Problem) (hn : 0 < P.nfb) (hd : P.Rm.det ≠ 0) {e1 e2 u1 u2 : ℝ} (he1 : 0 < e1) (hu1 : 0 < u1) (he2 : 0 < e2) (hu2 : 0 < u2)
    (hlo : ∀ r < P.nx * P.ny * P.nz, Denser (scalar e1) (P.epsInv r) ∧ Denser (scalar u1) (invMu P r))
    (hhi : ∀ r < P.nx * P.ny * P.nz, Denser (P.epsInv r) (scalar e2) ∧ Denser (invMu P r) (scalar u2)) (lam : ℝ) (n : ℕ) :
    (n ≤ 2 * (waves P (e1 * u1 * lam)).ncard → ModesUpTo P.data lam n) ∧ (ModesUpTo P.data lam n → n ≤ 2 * (waves P (e2 * u2 * lam)).ncard) := by
  constructor
  · intro h
    set Q : Problem := { P with epsInv := fun _ => scalar e1, muInv := some fun _ => scalar u1 } with hQ
    have : Loaded Q P := ⟨rfl, rfl, rfl, rfl, rfl, rfl, fun r hr => (hlo r hr).1, fun r hr => (hlo r hr).2⟩
    exact C104_monotone this lam n ((C115_empty Q hn hd he1 hu1 (fun _ _ => rfl) (fun _ _ => rfl) lam n).2 h)
  · intro h
    set Q : Problem := { P with epsInv := fun _ => scalar e2, muInv := some fun _ => scalar u2 } with hQ
    have : Loaded P Q := ⟨rfl, rfl, rfl, rfl, rfl, rfl, fun r hr => (hhi r hr).1, fun r hr => (hhi r hr).2⟩
    exact (C115_empty Q hn hd he2 hu2 (fun _ _ => rfl) (fun _ _ => rfl) lam n).1 (C104_monotone this lam n h)

theorem denser_scalar {a b : ℝ} (ha : 0 < a) (hab : a ≤ b) : Denser (scalar a) (scalar b) := by
  have ha0 : (a : ℂ) ≠ 0 := by exact_mod_cast (by linarith : a ≠ 0)
  have hb0 : (b : ℂ) ≠ 0 := by exact_mod_cast (by linarith : b ≠ 0)
  have hform : ∀ (a : ℝ) (v : Fin 3 → ℂ), (star v ⬝ᵥ (Tensor.Spec.toMatrix ⟨a, a, a, 0, 0, 0⟩).mulVec v).re =
      a * (Complex.normSq (v 0) + Complex.normSq (v 1) + Complex.normSq (v 2)) := by
    intro a v
    simp [Tensor.Spec.toMatrix, Matrix.mulVec, dotProduct, Fin.sum_univ_three, Complex.normSq_apply]
    ring
  refine ⟨⟨a, a, a, 0, 0, 0⟩, ⟨b, b, b, 0, 0, 0⟩, ?_, ?_, ?_, ?_⟩
  · ext i j
    fin_cases i <;> fin_cases j <;> simp [scalar, Tensor.Spec.toMatrix, Matrix.mul_apply, Fin.sum_univ_three, ha0]
  · ext i j
    fin_cases i <;> fin_cases j <;> simp [scalar, Tensor.Spec.toMatrix, Matrix.mul_apply, Fin.sum_univ_three, hb0]
  · intro v hv
    rw [hform]
    refine mul_pos ha ?_
    by_contra hc
    push Not at hc
    have h0 := Complex.normSq_nonneg (v 0)
    have h1 := Complex.normSq_nonneg (v 1)
    have h2 := Complex.normSq_nonneg (v 2)
    apply hv
    funext i
    fin_cases i
    · exact Complex.normSq_eq_zero.1 (show Complex.normSq (v 0) = 0 by linarith)
    · exact Complex.normSq_eq_zero.1 (show Complex.normSq (v 1) = 0 by linarith)
    · exact Complex.normSq_eq_zero.1 (show Complex.normSq (v 2) = 0 by linarith)
  · intro v
    rw [hform, hform]
    exact mul_le_mul_of_nonneg_right hab (add_nonneg (add_nonneg (Complex.normSq_nonneg _) (Complex.normSq_nonneg _)) (Complex.normSq_nonneg _))

/-- Non-vacuity: three layers of permittivity 4, 1, 1 at a wavevector inside the zone; the planewaves with `|k + G| ≤ 3/4` are those of `G = 0` only. -/
example : 0 < layered.nfb ∧ layered.Rm.det ≠ 0 ∧
    (∀ r < layered.nx * layered.ny * layered.nz, Denser (scalar 1) (layered.epsInv r) ∧ Denser (scalar 1) (invMu layered r)) ∧
    (∀ r < layered.nx * layered.ny * layered.nz, Denser (layered.epsInv r) (scalar 4) ∧ Denser (invMu layered r) (scalar 1)) ∧
    waves { layered with k := ⟨1 / 4, 0, 0⟩ } (9 / 16) = {⟨0, 0, 0⟩} := by
  have hl : ∀ r, layered.epsInv r = if r = 0 then scalar 4 else scalar 1 := fun r => by
    by_cases h : r = 0 <;> simp [layered, scalar, h]
  have hm : ∀ r, invMu layered r = scalar 1 := fun r => by simp [layered, invMu, scalar]
  refine ⟨by simp [layered], by simp [layered, M3.det, M3.one], fun r _ => ?_, fun r _ => ?_, ?_⟩
  · rw [hl, hm]
    refine ⟨?_, denser_scalar one_pos le_rfl⟩
    split_ifs
    · exact denser_scalar one_pos (by norm_num)
    · exact denser_scalar one_pos le_rfl
  · rw [hl, hm]
    refine ⟨?_, denser_scalar one_pos le_rfl⟩
    split_ifs
    · exact denser_scalar (by norm_num) le_rfl
    · exact denser_scalar one_pos (by norm_num)
  · ext g
    rw [Set.mem_singleton_iff]
    constructor
    · rintro ⟨hx, hy, hz, K, h0, h1, h2, hK⟩
      simp [kept, layered] at hx hy hz
      simp [layered, M3.one, V3.dot] at h0 h1 h2 hK
      obtain ⟨gx, gy, gz⟩ := g
      dsimp only at *
      subst hy hz
      have : gx = 0 := by
        by_contra hne
        have h3 : (1 : ℝ) ≤ gx := by exact_mod_cast (by omega : (1 : ℤ) ≤ gx)
        nlinarith [sq_nonneg K.y, sq_nonneg K.z]
      rw [this]
    · rintro rfl
      refine ⟨by simp [kept, layered], by simp [kept, layered], by simp [kept, layered], ⟨1 / 4, 0, 0⟩, ?_, ?_, ?_, ?_⟩ <;>
        simp [layered, M3.one, V3.dot]
      norm_num

end Mpb.Invariance

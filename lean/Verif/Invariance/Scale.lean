import Verif.Invariance.Homogeneous

/-! # Property C95: units of length, of permittivity and of permeability -/

namespace Mpb.Invariance
open Mpb.Maxwell Mpb.Maxwell.Spec Spec

theorem bandOp_scaled {d d' : OpData} (hN : d'.N = d.N) (hf : d'.Wf = d.Wf) (hb : d'.Wb = d.Wb) {c t : ℝ}
    (hk : ∀ G < d.N, d'.kpg G = ⟨c * (d.kpg G).kmag, (d.kpg G).m, (d.kpg G).n⟩) (he : ∀ r < d.N, d'.epsInv r = times t (d.epsInv r))
    (x : ℕ → ℂ × ℂ) {G : ℕ} (hG : G < d.N) :
    bandOp d' x G = (((c * c * t : ℝ) : ℂ) * (bandOp d x G).1, ((c * c * t : ℝ) : ℂ) * (bandOp d x G).2) := by
  unfold bandOp colOp
  rw [hN, hf, hb]
  have h1 : ∀ r, transform d.Wf d.N (fun G => crossT2c (d'.kpg G) (x G).1 (x G).2) r =
      V3.smul (c : ℂ) (transform d.Wf d.N (fun G => crossT2c (d.kpg G) (x G).1 (x G).2) r) := by
    intro r
    rw [← transform_smul]
    refine transform_congr (fun j hj => ?_) r
    rw [hk j hj]
    ext <;> apply Complex.ext <;> simp [crossT2c] <;> ring
  have h2 : transform d.Wb d.N (fun r => (d'.epsInv r).mulVec (transform d.Wf d.N (fun G => crossT2c (d'.kpg G) (x G).1 (x G).2) r)) G =
      V3.smul ((t * c : ℝ) : ℂ) (transform d.Wb d.N (fun r => (d.epsInv r).mulVec (transform d.Wf d.N
        (fun G => crossT2c (d.kpg G) (x G).1 (x G).2) r)) G) := by
    rw [← transform_smul]
    refine transform_congr (fun j hj => ?_) G
    rw [h1, he j hj, mulVec_times, mulVec_smul, smul_smul3]
    push_cast; rfl
  rw [h2, hk G hG]
  refine Prod.ext ?_ ?_ <;> apply Complex.ext <;> simp [crossC2t] <;> ring

theorem bandMu_scaled {d d' : OpData} (hN : d'.N = d.N) (hf : d'.Wf = d.Wf) (hb : d'.Wb = d.Wb) {c t : ℝ}
    (hk : ∀ G < d.N, d'.kpg G = ⟨c * (d.kpg G).kmag, (d.kpg G).m, (d.kpg G).n⟩) {mu mu' : ℕ → HMat} (he : ∀ r < d.N, mu' r = times t (mu r))
    (x : ℕ → ℂ × ℂ) {G : ℕ} (hG : G < d.N) :
    bandMu d' mu' x G = ((t : ℂ) * (bandMu d mu x G).1, (t : ℂ) * (bandMu d mu x G).2) := by
  unfold bandMu colOp
  rw [hN, hf, hb]
  have h1 : ∀ r, transform d.Wf d.N (fun G => t2c (d'.kpg G) (x G).1 (x G).2) r =
      transform d.Wf d.N (fun G => t2c (d.kpg G) (x G).1 (x G).2) r := by
    intro r
    refine transform_congr (fun j hj => ?_) r
    rw [hk j hj]
    rfl
  have h2 : transform d.Wb d.N (fun r => (mu' r).mulVec (transform d.Wf d.N (fun G => t2c (d'.kpg G) (x G).1 (x G).2) r)) G =
      V3.smul (t : ℂ) (transform d.Wb d.N (fun r => (mu r).mulVec (transform d.Wf d.N (fun G => t2c (d.kpg G) (x G).1 (x G).2) r)) G) := by
    rw [← transform_smul]
    refine transform_congr (fun j hj => ?_) G
    rw [h1, he j hj, mulVec_times]
  rw [h2, hk G hG]
  refine Prod.ext ?_ ?_ <;> apply Complex.ext <;> simp [c2t] <;> ring

theorem bandOp_smul (d : OpData) (c : ℂ) (x : ℕ → ℂ × ℂ) (G : ℕ) :
    bandOp d (fun G => (c * (x G).1, c * (x G).2)) G = (c * (bandOp d x G).1, c * (bandOp d x G).2) := by
  have := colOp_linear crossT2c crossC2t d d.epsInv (-1 / (d.N : ℝ)) c 0 (fun k x y x' y' => ?_) (fun k a b => ?_) x x G
  · simpa [bandOp] using this
  · ext <;> apply Complex.ext <;> simp [crossT2c] <;> ring
  · refine Prod.ext ?_ ?_ <;> apply Complex.ext <;> simp [crossC2t] <;> ring

theorem bandMu_smul (d : OpData) (mu : ℕ → HMat) (c : ℂ) (x : ℕ → ℂ × ℂ) (G : ℕ) :
    bandMu d mu (fun G => (c * (x G).1, c * (x G).2)) G = (c * (bandMu d mu x G).1, c * (bandMu d mu x G).2) := by
  have := colOp_linear t2c c2t d mu (1 / (d.N : ℝ)) c 0 (fun k x y x' y' => ?_) (fun k a b => ?_) x x G
  · simpa [bandMu] using this
  · ext <;> apply Complex.ext <;> simp [t2c] <;> ring
  · refine Prod.ext ?_ ?_ <;> apply Complex.ext <;> simp [c2t] <;> ring

/-- The problem with all lengths multiplied by `s`, all permittivities by `t` and all permeabilities by `u` (the stored tensors are the
inverse ones); the wavevector keeps its coordinates in the basis of the reciprocal vectors. -/
noncomputable def Spec.rescaled (s t u : ℝ) (P : Problem) : Problem :=
  ⟨P.nx, P.ny, P.nz, P.nfb, scaled s P.Rm, P.k, fun r => times (1 / t) (P.epsInv r), P.muInv.map fun mu r => times (1 / u) (mu r)⟩

/-- C95.  For every grid, lattice, wavevector, permittivity and permeability: multiplying all lengths by `s`, `ε` by `t` and `μ` by `u`
divides the squared frequencies by `s² t u`, and the modes are the same; so frequencies are divided by `s √(t u)`. -/
theorem C95_units_partial (P : Problem) {s t u : ℝ} (hs : 0 < s) (ht : 0 < t) (hu : 0 < u) (hmu : P.muInv = none → u = 1) (lam : ℝ) (X : ℕ → ℂ) :
    IsMode P.data lam X ↔ IsMode (Spec.rescaled s t u P).data (lam / (s ^ 2 * t * u)) X := by
  set P' := Spec.rescaled s t u P with hP'
  rcases Nat.eq_zero_or_pos P.nfb with h0 | hn
  · exact iff_of_false (not_isMode _ h0 _ _) (not_isMode _ h0 _ _)
  have hN : P'.data.N = P.data.N := rfl
  have hk : ∀ G < P.data.N, P'.data.kpg G = ⟨1 / s * (P.data.kpg G).kmag, (P.data.kpg G).m, (P.data.kpg G).n⟩ := by
    intro G hG
    have : P'.data.kpg G = kpgArr P.nx P.ny P.nz (Velocity.latticeGm (scaled s P.Rm)).c0 (Velocity.latticeGm (scaled s P.Rm)).c1
      (Velocity.latticeGm (scaled s P.Rm)).c2 P.k G := rfl
    rw [this, latticeGm_scaled s hs.ne']
    exact kpgArr_scaled (by positivity) _ _ hG
  have hop : ∀ x, ∀ G < P.data.N, bandOp P'.data x G =
      (((1 / s * (1 / s) * (1 / t) : ℝ) : ℂ) * (bandOp P.data x G).1, ((1 / s * (1 / s) * (1 / t) : ℝ) : ℂ) * (bandOp P.data x G).2) := fun x G hG =>
    bandOp_scaled hN rfl rfl hk (fun r _ => rfl) x hG
  rw [isMode_iff _ hn, isMode_iff _ (show 0 < P'.data.nfb from hn), hN]
  refine and_congr_right fun _ => ?_
  refine forall_congr' fun G => imp_congr_right fun hG => ?_
  set x := band 1 X 0 with hx
  have hst : (s : ℂ) ≠ 0 ∧ (t : ℂ) ≠ 0 ∧ (u : ℂ) ≠ 0 := ⟨by exact_mod_cast hs.ne', by exact_mod_cast ht.ne', by exact_mod_cast hu.ne'⟩
  obtain ⟨h1, h2, h3⟩ := hst
  have fin : ∀ {a b : ℂ × ℂ} {a' b' : ℂ × ℂ} {ca cb : ℂ}, ca ≠ 0 → a' = (ca * a.1, ca * a.2) → b' = (cb * b.1, cb * b.2) →
      ca * (lam : ℂ) = ((lam / (s ^ 2 * t * u) : ℝ) : ℂ) * cb →
      (a = ((lam : ℂ) * b.1, (lam : ℂ) * b.2) ↔ a' = (((lam / (s ^ 2 * t * u) : ℝ) : ℂ) * b'.1, ((lam / (s ^ 2 * t * u) : ℝ) : ℂ) * b'.2)) := by
    rintro ⟨a1, a2⟩ ⟨b1, b2⟩ a' b' ca cb hca rfl rfl hc
    simp only [Prod.mk.injEq]
    rw [← mul_assoc, ← mul_assoc, ← hc, mul_assoc, mul_assoc]
    constructor
    · rintro ⟨e1, e2⟩
      exact ⟨by rw [e1], by rw [e2]⟩
    · rintro ⟨e1, e2⟩
      exact ⟨mul_left_cancel₀ hca e1, mul_left_cancel₀ hca e2⟩
  cases hm : P.muInv with
  | none =>
    have m1 : P.data.muInv = none := hm
    have m2 : P'.data.muInv = none := by show P.muInv.map _ = none; rw [hm]; rfl
    have hu1 := hmu hm
    unfold bandMaxwell bandMuinv
    rw [m1, m2]
    dsimp only
    refine fin (cb := 1) ?_ (hop x G hG) ?_ ?_
    · exact_mod_cast (by positivity : (1 / s * (1 / s) * (1 / t) : ℝ) ≠ 0)
    · simp
    · rw [hu1]; push_cast; field_simp
  | some mu =>
    have m1 : P.data.muInv = some mu := hm
    have m2 : P'.data.muInv = some fun r => times (1 / u) (mu r) := by show P.muInv.map _ = _; rw [hm]; rfl
    unfold bandMaxwell bandMuinv
    rw [m1, m2]
    dsimp only
    have hM : ∀ x, ∀ G < P.data.N, bandMu P'.data (fun r => times (1 / u) (mu r)) x G =
        (((1 / u : ℝ) : ℂ) * (bandMu P.data mu x G).1, ((1 / u : ℝ) : ℂ) * (bandMu P.data mu x G).2) := fun x G hG =>
      bandMu_scaled hN rfl rfl hk (fun r _ => rfl) x hG
    refine fin (ca := (((1 / u) * ((1 / s * (1 / s) * (1 / t)) * (1 / u)) : ℝ) : ℂ)) (cb := ((1 / u : ℝ) : ℂ)) ?_ ?_ (hM x G hG) ?_
    · exact_mod_cast (by positivity : ((1 / u) * ((1 / s * (1 / s) * (1 / t)) * (1 / u)) : ℝ) ≠ 0)
    · have s1 : ∀ G < P.data.N, bandOp P'.data (bandMu P'.data (fun r => times (1 / u) (mu r)) x) G =
          ((((1 / s * (1 / s) * (1 / t)) * (1 / u) : ℝ) : ℂ) * (bandOp P.data (bandMu P.data mu x) G).1,
            (((1 / s * (1 / s) * (1 / t)) * (1 / u) : ℝ) : ℂ) * (bandOp P.data (bandMu P.data mu x) G).2) := by
        intro G hG
        rw [hop _ G hG]
        have : bandOp P.data (bandMu P'.data (fun r => times (1 / u) (mu r)) x) G =
            bandOp P.data (fun G => (((1 / u : ℝ) : ℂ) * (bandMu P.data mu x G).1, ((1 / u : ℝ) : ℂ) * (bandMu P.data mu x G).2)) G :=
          colOp_congr _ _ _ _ _ (fun G' hG' => hM x G' hG') G
        rw [this, bandOp_smul]
        simp only [Prod.mk.injEq]
        constructor <;> (push_cast; ring)
      rw [hM _ G hG]
      have : bandMu P.data mu (bandOp P'.data (bandMu P'.data (fun r => times (1 / u) (mu r)) x)) G = _ :=
          (colOp_congr _ _ _ _ _ (fun G' hG' => s1 G' hG') G).trans (bandMu_smul P.data mu _ _ G)
      rw [this]
      simp only [Prod.mk.injEq]
      constructor <;> (push_cast; ring)
    · push_cast; field_simp

/-- Non-vacuity: glass (`ε = 4`) on a 4 x 2 x 1 grid, lattice constant 1, `k = (1/4, 0, 0)`; the planewave of squared frequency 1/64 is a
mode, and of squared frequency 1/64 / (9 · 5) when lengths are tripled and `ε` is multiplied by 5. -/
example : ∃ X, IsMode (⟨4, 2, 1, 3, M3.one, ⟨1 / 4, 0, 0⟩, fun _ => ⟨1 / 4, 1 / 4, 1 / 4, 0, 0, 0⟩, none⟩ : Problem).data (1 / 64) X ∧
    IsMode (Spec.rescaled 3 5 1 ⟨4, 2, 1, 3, M3.one, ⟨1 / 4, 0, 0⟩, fun _ => ⟨1 / 4, 1 / 4, 1 / 4, 0, 0, 0⟩, none⟩).data (1 / 64 / (3 ^ 2 * 5 * 1)) X := by
  have h := homogeneous_mode ⟨4, 2, 1, 3, M3.one, ⟨1 / 4, 0, 0⟩, fun _ => ⟨1 / 4, 1 / 4, 1 / 4, 0, 0, 0⟩, none⟩ (by norm_num) rfl (fun _ => rfl)
    (x := 0) (y := 0) (z := 0) (by norm_num) (by norm_num) (by norm_num)
  have hw : (⟨4, 2, 1, 3, M3.one, ⟨1 / 4, 0, 0⟩, fun _ => ⟨1 / 4, 1 / 4, 1 / 4, 0, 0, 0⟩, none⟩ : Problem).wave 0 0 0 = ⟨1 / 4, 0, 0⟩ := by
    simp [Problem.wave, waveVec, harm, Velocity.latticeGm, MpbData.inverse, M3.det, M3.one, M3.transpose, V3.smul, V3.cross]
    ext <;> simp
  rw [hw, show (1 / 4 * V3.dot (⟨1 / 4, 0, 0⟩ : V3 ℝ) ⟨1 / 4, 0, 0⟩ : ℝ) = 1 / 64 by norm_num [V3.dot]] at h
  exact ⟨_, h, (C95_units_partial _ (by norm_num) (by norm_num) (by norm_num) (fun _ => rfl) _ _).mp h⟩

end Mpb.Invariance

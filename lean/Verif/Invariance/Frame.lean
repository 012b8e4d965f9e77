import Verif.Invariance.Lemmas

/-! # Changes of the amplitudes planewave by planewave, and what they do to modes -/

namespace Mpb.Invariance
open Mpb.Maxwell Mpb.Maxwell.Spec Spec

/-- A renumbering of the planewaves together with a unitary change of the two amplitudes of each. -/
structure Frame (N : ℕ) where
  σ : Equiv.Perm ℕ
  A : ℕ → (ℂ × ℂ) ≃ₗ[ℂ] (ℂ × ℂ)
  range : ∀ G, σ G < N ↔ G < N
  norm : ∀ G v, Complex.normSq (A G v).1 + Complex.normSq (A G v).2 = Complex.normSq v.1 + Complex.normSq v.2

/-- The action on the two-component amplitudes. -/
def Frame.act {N : ℕ} (F : Frame N) (x : ℕ → ℂ × ℂ) (G : ℕ) : ℂ × ℂ := F.A (F.σ.symm G) (x (F.σ.symm G))

theorem Frame.act_apply {N : ℕ} (F : Frame N) (x : ℕ → ℂ × ℂ) (G : ℕ) : F.act x (F.σ G) = F.A G (x G) := by simp [act]

/-- An array of amplitudes as pairs. -/
def pairs : (ℕ → ℂ) ≃ₗ[ℂ] (ℕ → ℂ × ℂ) where
  toFun X G := (X (G * 2), X (G * 2 + 1))
  invFun x a := if a % 2 = 0 then (x (a / 2)).1 else (x (a / 2)).2
  map_add' _ _ := rfl
  map_smul' _ _ := rfl
  left_inv X := by
    funext a
    dsimp only
    rcases Nat.mod_two_eq_zero_or_one a with h | h
    · rw [if_pos h]; congr 1; omega
    · rw [if_neg (by omega)]; congr 1; omega
  right_inv x := by
    funext G
    have h1 : (G * 2) % 2 = 0 := by omega
    have h2 : ¬ (G * 2 + 1) % 2 = 0 := by omega
    have h3 : (G * 2) / 2 = G := by omega
    have h4 : (G * 2 + 1) / 2 = G := by omega
    simp only [h1, h2, h3, h4, if_true, if_false, Prod.mk.eta]

theorem band_pairs (X : ℕ → ℂ) : band 1 X 0 = pairs X := by
  funext G
  rw [band1]
  rfl

/-- The action on arrays of amplitudes. -/
def Frame.U {N : ℕ} (F : Frame N) : (ℕ → ℂ) ≃ₗ[ℂ] (ℕ → ℂ) :=
  pairs.trans ((LinearEquiv.piCongrRight F.A).trans ((LinearEquiv.funCongrLeft ℂ (ℂ × ℂ) F.σ.symm).trans pairs.symm))

theorem Frame.band_U {N : ℕ} (F : Frame N) (X : ℕ → ℂ) : band 1 (F.U X) 0 = F.act (band 1 X 0) := by
  rw [band_pairs, band_pairs]
  unfold U
  simp only [LinearEquiv.trans_apply, LinearEquiv.apply_symm_apply]
  rfl

theorem sum_pairs (N : ℕ) (X : ℕ → ℂ) : ∑ a ∈ Finset.range (N * 2), Complex.normSq (X a) =
    ∑ G ∈ Finset.range N, (Complex.normSq (band 1 X 0 G).1 + Complex.normSq (band 1 X 0 G).2) := by
  induction N with
  | zero => simp
  | succ N ih => rw [Nat.succ_mul, Finset.sum_range_succ, Finset.sum_range_succ, ih, Finset.sum_range_succ, band1, add_assoc]

theorem sum_perm {N : ℕ} {M : Type*} [AddCommMonoid M] (σ : Equiv.Perm ℕ) (hσ : ∀ G, σ G < N ↔ G < N) (f : ℕ → M) :
    ∑ G ∈ Finset.range N, f (σ G) = ∑ G ∈ Finset.range N, f G := by
  refine Finset.sum_equiv σ (fun G => ?_) (fun G _ => rfl)
  rw [Finset.mem_range, Finset.mem_range, hσ]

theorem Frame.norm_U {N : ℕ} (F : Frame N) (X : ℕ → ℂ) :
    ∑ a ∈ Finset.range (N * 2), Complex.normSq (F.U X a) = ∑ a ∈ Finset.range (N * 2), Complex.normSq (X a) := by
  rw [sum_pairs, sum_pairs, F.band_U]
  rw [← sum_perm F.σ F.range]
  refine Finset.sum_congr rfl fun G _ => ?_
  rw [F.act_apply, F.norm]

/-- If the change of amplitudes turns the two operators of one problem into those of the other, the modes correspond. -/
theorem sameModes_of_frame {d d' : OpData} (hN : d'.N = d.N) (hn : 0 < d'.nfb ↔ 0 < d.nfb) (F : Frame d.N)
    (h1 : ∀ x, ∀ G < d.N, bandMaxwell d' (F.act x) (F.σ G) = F.A G (bandMaxwell d x G))
    (h2 : ∀ x, ∀ G < d.N, bandMuinv d' (F.act x) (F.σ G) = F.A G (bandMuinv d x G)) : SameModes d d' 1 := by
  refine ⟨hN, F.U, F.norm_U, fun lam X => ?_⟩
  rcases Nat.eq_zero_or_pos d.nfb with h0 | hpos
  · have h0' : d'.nfb = 0 := by by_contra hc; have := hn.mp (by omega); omega
    exact iff_of_false (not_isMode _ h0 _ _) (not_isMode _ h0' _ _)
  rw [isMode_iff _ hpos, isMode_iff _ (hn.mpr hpos), hN, F.band_U, one_mul]
  have hz : ∀ G v, F.A G v = (0, 0) ↔ v = (0, 0) := fun G v => by
    rw [← Prod.zero_eq_mk]; exact (F.A G).map_eq_zero_iff
  have hall : ∀ p : ℕ → Prop, (∀ G < d.N, p G) ↔ ∀ G < d.N, p (F.σ G) := by
    intro p
    constructor
    · exact fun h G hG => h _ ((F.range G).mpr hG)
    · intro h G hG
      have := h (F.σ.symm G) (by rw [← F.range, Equiv.apply_symm_apply]; exact hG)
      rwa [Equiv.apply_symm_apply] at this
  refine and_congr ?_ ?_
  · constructor
    · rintro ⟨G, hG, h⟩
      refine ⟨F.σ G, (F.range G).mpr hG, ?_⟩
      rw [F.act_apply]
      exact fun hc => h ((hz _ _).mp hc)
    · rintro ⟨G, hG, h⟩
      refine ⟨F.σ.symm G, by rw [← F.range, Equiv.apply_symm_apply]; exact hG, fun hc => h ?_⟩
      unfold Frame.act
      exact (hz _ _).mpr hc
  · rw [hall (fun G => bandMaxwell d' _ G = _)]
    refine forall_congr' fun G => imp_congr_right fun hG => ?_
    rw [h1 _ G hG, h2 _ G hG]
    have : ((lam : ℂ) * (F.A G (bandMuinv d (band 1 X 0) G)).1, (lam : ℂ) * (F.A G (bandMuinv d (band 1 X 0) G)).2) =
        F.A G ((lam : ℂ) * (bandMuinv d (band 1 X 0) G).1, (lam : ℂ) * (bandMuinv d (band 1 X 0) G).2) := by
      have := (F.A G).map_smul (lam : ℂ) (bandMuinv d (band 1 X 0) G)
      exact this.symm
    rw [this]
    exact (F.A G).injective.eq_iff.symm

/-- It is enough to look at the operator without permeability and at each permeability. -/
theorem sameModes_of_ops {d d' : OpData} (hN : d'.N = d.N) (hn : 0 < d'.nfb ↔ 0 < d.nfb) (F : Frame d.N)
    (h1 : ∀ x, ∀ G < d.N, bandOp d' (F.act x) (F.σ G) = F.A G (bandOp d x G))
    (h2 : (d.muInv = none ∧ d'.muInv = none) ∨ ∃ mu mu', d.muInv = some mu ∧ d'.muInv = some mu' ∧
      ∀ x, ∀ G < d.N, bandMu d' mu' (F.act x) (F.σ G) = F.A G (bandMu d mu x G)) : SameModes d d' 1 := by
  have lift : ∀ {x y : ℕ → ℂ × ℂ}, (∀ G < d.N, y (F.σ G) = F.A G (x G)) → ∀ G < d'.N, y G = F.act x G := by
    intro x y h G hG
    rw [hN] at hG
    have := h (F.σ.symm G) (by rw [← F.range, Equiv.apply_symm_apply]; exact hG)
    rwa [Equiv.apply_symm_apply] at this
  rcases h2 with ⟨m, m'⟩ | ⟨mu, mu', m, m', h2⟩
  · refine sameModes_of_frame hN hn F (fun x G hG => ?_) (fun x G hG => ?_)
    · unfold bandMaxwell; rw [m, m']; exact h1 x G hG
    · unfold bandMuinv; rw [m, m']; exact F.act_apply x G
  · refine sameModes_of_frame hN hn F (fun x G hG => ?_) (fun x G hG => ?_)
    · unfold bandMaxwell; rw [m, m']
      dsimp only
      rw [← h2 _ G hG]
      refine colOp_congr _ _ _ _ _ (fun G' hG' => ?_) _
      rw [← lift (h1 (bandMu d mu x)) G' hG']
      exact colOp_congr _ _ _ _ _ (fun G'' hG'' => lift (h2 x) G'' hG'') G'
    · unfold bandMuinv; rw [m, m']; exact h2 x G hG

end Mpb.Invariance

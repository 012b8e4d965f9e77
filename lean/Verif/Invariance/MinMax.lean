import Mathlib.Analysis.Matrix.PosDef
import Mathlib.Analysis.Matrix.Spectrum
import Mathlib.Analysis.Complex.Order

/-! # Comparison of two pencils `A x = λ B x` (Courant, Fischer), for matrices -/

namespace Mpb.Invariance.MinMax
open Matrix
open scoped ComplexOrder

variable {m n : ℕ}

theorem hermitian_diag {A : Matrix (Fin m) (Fin m) ℂ} (hA : A.IsHermitian) :
    ∃ (U : Matrix (Fin m) (Fin m) ℂ) (τ : Fin m → ℝ), Uᴴ * U = 1 ∧ Uᴴ * A * U = diagonal (fun i => ((τ i : ℝ) : ℂ)) := by
  refine ⟨hA.eigenvectorUnitary, hA.eigenvalues, ?_, ?_⟩
  · exact Unitary.coe_star_mul_self hA.eigenvectorUnitary
  · have h := hA.conjStarAlgAut_star_eigenvectorUnitary
    rw [Unitary.conjStarAlgAut_apply] at h
    simpa [Function.comp_def, star_eq_conjTranspose] using h

/-- A basis in which both matrices are diagonal. -/
theorem pencil_diag {A B : Matrix (Fin m) (Fin m) ℂ} (hA : A.IsHermitian) (hB : B.PosDef) :
    ∃ (V : Matrix (Fin m) (Fin m) ℂ) (τ : Fin m → ℝ), Vᴴ * B * V = 1 ∧ Vᴴ * A * V = diagonal (fun i => ((τ i : ℝ) : ℂ)) := by
  obtain ⟨U, δ, hU, hd⟩ := hermitian_diag hB.isHermitian
  have hpos : ∀ i, 0 < δ i := by
    intro i
    have hne : U.mulVec (Pi.single i 1) ≠ 0 := by
      intro h0
      have : (Uᴴ * U).mulVec (Pi.single i 1) = 0 := by rw [← mulVec_mulVec, h0, mulVec_zero]
      rw [hU, one_mulVec] at this
      have := congrFun this i
      simp at this
    have h := hB.dotProduct_mulVec_pos hne
    have e : star (U.mulVec (Pi.single i 1)) ⬝ᵥ B.mulVec (U.mulVec (Pi.single i 1)) = ((δ i : ℝ) : ℂ) := by
      rw [star_mulVec, ← dotProduct_mulVec, mulVec_mulVec, mulVec_mulVec, hd]
      simp [dotProduct, mulVec_diagonal, Pi.single_apply]
    rw [e] at h
    exact_mod_cast h
  set W := U * diagonal (fun i => ((1 / Real.sqrt (δ i) : ℝ) : ℂ)) with hW
  have hWc : Wᴴ = diagonal (fun i => ((1 / Real.sqrt (δ i) : ℝ) : ℂ)) * Uᴴ := by
    rw [hW, conjTranspose_mul, diagonal_conjTranspose]
    congr 2
    funext i
    simp
  have h1 : Wᴴ * B * W = 1 := by
    have : Wᴴ * B * W = diagonal (fun i => ((1 / Real.sqrt (δ i) : ℝ) : ℂ)) * (Uᴴ * B * U) * diagonal (fun i => ((1 / Real.sqrt (δ i) : ℝ) : ℂ)) := by
      rw [hWc, hW]; simp only [Matrix.mul_assoc]
    rw [this, hd, diagonal_mul_diagonal, diagonal_mul_diagonal, ← diagonal_one]
    congr 1
    funext i
    have hs : Real.sqrt (δ i) * Real.sqrt (δ i) = δ i := Real.mul_self_sqrt (hpos i).le
    have hs0 : Real.sqrt (δ i) ≠ 0 := (Real.sqrt_pos.2 (hpos i)).ne'
    have : (1 / Real.sqrt (δ i)) * δ i * (1 / Real.sqrt (δ i)) = 1 := by
      field_simp
      nlinarith
    exact_mod_cast this
  have hH : (Wᴴ * A * W).IsHermitian := by
    unfold Matrix.IsHermitian
    rw [conjTranspose_mul (Wᴴ * A) W, conjTranspose_mul Wᴴ A, conjTranspose_conjTranspose, hA, Matrix.mul_assoc]
  obtain ⟨Q, τ, hQ, hT⟩ := hermitian_diag hH
  refine ⟨W * Q, τ, ?_, ?_⟩
  · rw [conjTranspose_mul]
    calc Qᴴ * Wᴴ * B * (W * Q) = Qᴴ * (Wᴴ * B * W) * Q := by simp only [Matrix.mul_assoc]
      _ = 1 := by rw [h1, Matrix.mul_one, hQ]
  · rw [conjTranspose_mul]
    calc Qᴴ * Wᴴ * A * (W * Q) = Qᴴ * (Wᴴ * A * W) * Q := by simp only [Matrix.mul_assoc]
      _ = _ := hT

/-- The quadratic form. -/
noncomputable def form (A : Matrix (Fin m) (Fin m) ℂ) (x : Fin m → ℂ) : ℝ := (star x ⬝ᵥ A.mulVec x).re

theorem form_diag {A V : Matrix (Fin m) (Fin m) ℂ} {τ : Fin m → ℝ} (h : Vᴴ * A * V = diagonal (fun i => ((τ i : ℝ) : ℂ))) (c : Fin m → ℂ) :
    form A (V.mulVec c) = ∑ j, τ j * Complex.normSq (c j) := by
  unfold form
  rw [star_mulVec, ← dotProduct_mulVec, mulVec_mulVec, mulVec_mulVec, h]
  simp only [dotProduct, mulVec_diagonal, Pi.star_apply, Complex.re_sum]
  refine Finset.sum_congr rfl fun j _ => ?_
  rw [show star (c j) * ((τ j : ℂ) * c j) = ((τ j * Complex.normSq (c j) : ℝ) : ℂ) by
    push_cast
    rw [Complex.normSq_eq_conj_mul_self]
    show (starRingEnd ℂ) (c j) * _ = _
    ring]
  exact Complex.ofReal_re _

theorem one_diag : (1 : Matrix (Fin m) (Fin m) ℂ) = diagonal (fun _ => (((1 : ℝ)) : ℂ)) := by simp

/-- On the span of eigenvectors with eigenvalues up to `lam` the form lies below `lam`. -/
theorem low_span {A B : Matrix (Fin m) (Fin m) ℂ} (hA : A.IsHermitian) (hB : B.PosDef) {lam : ℝ} (f : Fin n → Fin m → ℂ)
    (hev : ∀ i, ∃ mu : ℝ, mu ≤ lam ∧ A.mulVec (f i) = (mu : ℂ) • B.mulVec (f i)) {x : Fin m → ℂ} (hx : x ∈ Submodule.span ℂ (Set.range f)) :
    form A x ≤ lam * form B x := by
  obtain ⟨V, τ, hVB, hVA⟩ := pencil_diag hA hB
  have inv1 : V * (Vᴴ * B) = 1 := mul_eq_one_comm.mp hVB
  have co : ∀ x, V.mulVec ((Vᴴ * B).mulVec x) = x := fun x => by rw [mulVec_mulVec, inv1, one_mulVec]
  -- coordinates of the given eigenvectors
  have hsupp : ∀ i j, lam < τ j → (Vᴴ * B).mulVec (f i) j = 0 := by
    intro i j hj
    obtain ⟨mu, hmu, he⟩ := hev i
    have h1 : (Vᴴ * A * V).mulVec ((Vᴴ * B).mulVec (f i)) = (mu : ℂ) • (Vᴴ * B).mulVec (f i) := by
      have : (Vᴴ * A * V).mulVec ((Vᴴ * B).mulVec (f i)) = Vᴴ.mulVec (A.mulVec (f i)) := by
        rw [← mulVec_mulVec, co, mulVec_mulVec]
      rw [this, he, mulVec_smul, mulVec_mulVec]
    rw [hVA] at h1
    have h2 := congrFun h1 j
    rw [mulVec_diagonal, Pi.smul_apply, smul_eq_mul] at h2
    have h3 : ((τ j : ℂ) - (mu : ℂ)) * (Vᴴ * B).mulVec (f i) j = 0 := by rw [sub_mul, h2, sub_self]
    refine (mul_eq_zero.mp h3).resolve_left ?_
    rw [← Complex.ofReal_sub]
    exact_mod_cast (by linarith : τ j - mu ≠ 0)
  have hlow : ∀ a : Fin n → ℂ, form A (∑ i, a i • f i) ≤ lam * form B (∑ i, a i • f i) := by
    intro a
    set x := ∑ i, a i • f i with hx
    rw [← co x, form_diag hVA, form_diag (hVB.trans one_diag), Finset.mul_sum]
    refine Finset.sum_le_sum fun j _ => ?_
    rcases le_or_gt (τ j) lam with h | h
    · rw [one_mul]
      exact mul_le_mul_of_nonneg_right h (Complex.normSq_nonneg _)
    · have : (Vᴴ * B).mulVec x j = 0 := by
        rw [hx, mulVec_sum, Finset.sum_apply]
        refine Finset.sum_eq_zero fun i _ => ?_
        rw [mulVec_smul, Pi.smul_apply, hsupp i j h, smul_zero]
      rw [this]; simp
  obtain ⟨a, ha⟩ := (Submodule.mem_span_range_iff_exists_fun ℂ).1 hx
  rw [← ha]
  exact hlow a

/-- Counting: if the form of the pencil lies below `lam` wherever `m - n` or fewer linear conditions hold, there are `n` independent
eigenvectors with eigenvalues up to `lam`. -/
theorem count_conditions {A' B' : Matrix (Fin m) (Fin m) ℂ} (hA' : A'.IsHermitian) (hB' : B'.PosDef) {lam : ℝ} {F : Type*} [AddCommGroup F] [Module ℂ F]
    [FiniteDimensional ℂ F] (Φ : (Fin m → ℂ) →ₗ[ℂ] F) (hdim : Module.finrank ℂ F + n ≤ m) (hle : ∀ x, Φ x = 0 → form A' x ≤ lam * form B' x) :
    ∃ f' : Fin n → Fin m → ℂ, LinearIndependent ℂ f' ∧ ∀ i, ∃ mu : ℝ, mu ≤ lam ∧ A'.mulVec (f' i) = (mu : ℂ) • B'.mulVec (f' i) := by
  obtain ⟨V', τ', hVB', hVA'⟩ := pencil_diag hA' hB'
  have inv2 : V' * (V'ᴴ * B') = 1 := mul_eq_one_comm.mp hVB'
  have co' : ∀ x, V'.mulVec ((V'ᴴ * B').mulVec x) = x := fun x => by rw [mulVec_mulVec, inv2, one_mulVec]
  set J := Finset.univ.filter (fun j => τ' j ≤ lam) with hJ
  have hcard : n ≤ J.card := by
    by_contra hc
    push Not at hc
    let L : (Fin m → ℂ) →ₗ[ℂ] (F × (J → ℂ)) :=
      { toFun := fun a => (Φ a, fun j => (V'ᴴ * B').mulVec a j)
        map_add' := by
          intro a b
          refine Prod.ext (map_add Φ a b) ?_
          funext j
          simp only [mulVec_add, Prod.snd_add, Pi.add_apply]
        map_smul' := by
          intro c a
          refine Prod.ext (map_smul Φ c a) ?_
          funext j
          simp only [mulVec_smul, Prod.smul_snd, Pi.smul_apply, RingHom.id_apply] }
    have hk : LinearMap.ker L ≠ ⊥ := LinearMap.ker_ne_bot_of_finrank_lt (by
      rw [Module.finrank_prod]
      simp only [Module.finrank_fintype_fun_eq_card, Fintype.card_fin, Fintype.card_coe]
      omega)
    obtain ⟨x, ha, hx0⟩ := (Submodule.ne_bot_iff _).1 hk
    rw [LinearMap.mem_ker] at ha
    have h1 := hle x (congrArg Prod.fst ha)
    set c := (V'ᴴ * B').mulVec x with hcdef
    have hcx : V'.mulVec c = x := co' x
    rw [← hcx, form_diag hVA', form_diag (hVB'.trans one_diag), Finset.mul_sum] at h1
    have hzero : ∀ j, τ' j ≤ lam → c j = 0 := by
      intro j hj
      have := congrFun (congrArg Prod.snd ha) ⟨j, by simp [hJ, hj]⟩
      exact this
    have hge : ∀ j ∈ Finset.univ, lam * (1 * Complex.normSq (c j)) ≤ τ' j * Complex.normSq (c j) := by
      intro j _
      rcases le_or_gt (τ' j) lam with h | h
      · rw [hzero j h]; simp
      · rw [one_mul]
        exact mul_le_mul_of_nonneg_right h.le (Complex.normSq_nonneg _)
    have hc0 : c ≠ 0 := by
      intro h0
      rw [h0, mulVec_zero] at hcx
      exact hx0 hcx.symm
    obtain ⟨j, hj⟩ := Function.ne_iff.1 hc0
    have hlt : ∑ j, lam * (1 * Complex.normSq (c j)) < ∑ j, τ' j * Complex.normSq (c j) := by
      refine Finset.sum_lt_sum hge ⟨j, Finset.mem_univ _, ?_⟩
      have hτ : lam < τ' j := by
        by_contra h
        push Not at h
        exact hj (hzero j h)
      rw [one_mul]
      exact mul_lt_mul_of_pos_right hτ (Complex.normSq_pos.2 hj)
    linarith
  obtain ⟨g, hg⟩ : ∃ g : Fin n ↪ Fin m, ∀ i, τ' (g i) ≤ lam := by
    have e := J.equivFin
    refine ⟨⟨fun i => (e.symm ⟨i, by omega⟩ : J).1, fun i j h => ?_⟩, fun i => ?_⟩
    · have h1 := e.symm.injective (Subtype.ext h)
      have := congrArg Fin.val h1
      exact Fin.ext this
    · have h := (e.symm ⟨i, by omega⟩).2
      exact (Finset.mem_filter.1 h).2
  refine ⟨fun i => V'.mulVec (Pi.single (g i) 1), ?_, fun i => ⟨τ' (g i), hg i, ?_⟩⟩
  · rw [Fintype.linearIndependent_iff]
    intro a ha i
    have h1 : V'.mulVec (∑ i, a i • Pi.single (g i) (1 : ℂ)) = 0 := by
      rw [mulVec_sum, ← ha]
      exact Finset.sum_congr rfl fun i _ => mulVec_smul _ _ _
    have h2 : (∑ i, a i • Pi.single (g i) (1 : ℂ) : Fin m → ℂ) = 0 := by
      have := congrArg ((V'ᴴ * B').mulVec) h1
      rwa [mulVec_mulVec, hVB', one_mulVec, mulVec_zero] at this
    have h3 := congrFun h2 (g i)
    rw [Finset.sum_apply, Finset.sum_eq_single i] at h3
    · simpa using h3
    · intro b _ hb
      rw [Pi.smul_apply, Pi.single_eq_of_ne (fun h => hb (g.injective h.symm)), smul_zero]
    · intro h; exact absurd (Finset.mem_univ _) h
  · have hAV : A' * V' = B' * V' * diagonal (fun i => ((τ' i : ℝ) : ℂ)) := by
      have l : V'ᴴ * (B' * V') = 1 := by rw [← Matrix.mul_assoc]; exact hVB'
      have r : B' * V' * V'ᴴ = 1 := mul_eq_one_comm.mp l
      calc A' * V' = B' * V' * V'ᴴ * (A' * V') := by rw [r, Matrix.one_mul]
        _ = B' * V' * (V'ᴴ * A' * V') := by simp only [Matrix.mul_assoc]
        _ = _ := by rw [hVA']
    rw [mulVec_mulVec, mulVec_mulVec, hAV, ← mulVec_mulVec, ← mulVec_smul]
    congr 1
    funext j
    rw [mulVec_diagonal, Pi.smul_apply, smul_eq_mul]
    by_cases h : j = g i
    · subst h; simp
    · rw [Pi.single_eq_of_ne h]; simp

/-- Comparison: a pencil whose form lies below `lam` wherever that of the first does has at least as many independent eigenvectors with
eigenvalues up to `lam`. -/
theorem count_mono {A B A' B' : Matrix (Fin m) (Fin m) ℂ} (hA : A.IsHermitian) (hB : B.PosDef) (hA' : A'.IsHermitian) (hB' : B'.PosDef) {lam : ℝ}
    (hle : ∀ x, form A x ≤ lam * form B x → form A' x ≤ lam * form B' x) (f : Fin n → Fin m → ℂ)
    (hf : LinearIndependent ℂ f) (hev : ∀ i, ∃ mu : ℝ, mu ≤ lam ∧ A.mulVec (f i) = (mu : ℂ) • B.mulVec (f i)) :
    ∃ f' : Fin n → Fin m → ℂ, LinearIndependent ℂ f' ∧ ∀ i, ∃ mu : ℝ, mu ≤ lam ∧ A'.mulVec (f' i) = (mu : ℂ) • B'.mulVec (f' i) := by
  refine count_conditions hA' hB' (Submodule.span ℂ (Set.range f)).mkQ ?_ fun x hx => hle x (low_span hA hB f hev ?_)
  · have := Submodule.finrank_quotient_add_finrank (Submodule.span ℂ (Set.range f))
    rw [finrank_span_eq_card hf] at this
    simpa using this.le
  · simpa using hx

/-- Inversion reverses the order of positive definite matrices. -/
theorem form_inv_le {M M' : Matrix (Fin m) (Fin m) ℂ} (hM : M.PosDef) (hM' : M'.PosDef) (h : ∀ x, form M' x ≤ form M x) (y : Fin m → ℂ) :
    form M⁻¹ y ≤ form M'⁻¹ y := by
  set u := M⁻¹.mulVec y with hu
  set w := M'⁻¹.mulVec y with hw
  have eu : M.mulVec u = y := by rw [hu, mulVec_mulVec, Matrix.mul_nonsing_inv _ ((Matrix.isUnit_iff_isUnit_det _).1 hM.isUnit), one_mulVec]
  have ew : M'.mulVec w = y := by rw [hw, mulVec_mulVec, Matrix.mul_nonsing_inv _ ((Matrix.isUnit_iff_isUnit_det _).1 hM'.isUnit), one_mulVec]
  have h0 : 0 ≤ form M' (u - w) := (Complex.le_def.1 (hM'.posSemidef.dotProduct_mulVec_nonneg (u - w))).1
  have cs : ∀ a b : Fin m → ℂ, (star a ⬝ᵥ b).re = (star b ⬝ᵥ a).re := by
    intro a b
    rw [← Complex.conj_re (star b ⬝ᵥ a)]
    congr 1
    show _ = star (star b ⬝ᵥ a)
    exact star_dotProduct _ _
  have hsym : ∀ a b : Fin m → ℂ, star a ⬝ᵥ M'.mulVec b = star (M'.mulVec a) ⬝ᵥ b := by
    intro a b
    rw [star_mulVec, hM'.isHermitian, dotProduct_mulVec]
  have e1 : form M' (u - w) = form M' u - 2 * (star u ⬝ᵥ y).re + (star w ⬝ᵥ y).re := by
    unfold form
    rw [star_sub, mulVec_sub, sub_dotProduct, dotProduct_sub, dotProduct_sub, ew, hsym w u, ew]
    simp only [Complex.sub_re]
    rw [cs y u]
    ring
  have e2 : form M u = (star u ⬝ᵥ y).re := by unfold form; rw [eu]
  have e3 : form M⁻¹ y = (star u ⬝ᵥ y).re := by
    unfold form; rw [← hu, cs]
  have e4 : form M'⁻¹ y = (star w ⬝ᵥ y).re := by
    unfold form; rw [← hw, cs]
  have := h u
  rw [e3, e4]
  linarith

end Mpb.Invariance.MinMax

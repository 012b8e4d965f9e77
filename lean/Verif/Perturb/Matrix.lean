import Verif.Invariance.MinMax
import Mathlib.Analysis.Calculus.Deriv.Basic
import Mathlib.Analysis.Calculus.Deriv.Mul
import Mathlib.Analysis.Calculus.Deriv.Add
import Mathlib.Analysis.Complex.RealDeriv
import Mathlib.Analysis.Matrix.Normed
import Mathlib.Algebra.Order.Chebyshev

/-! # First-order perturbation of a simple eigenvalue of a pencil `A x = λ B x` -/

namespace Mpb.Perturb
open Matrix Mpb.Invariance.MinMax Filter Topology Asymptotics
open scoped ComplexOrder

variable {m n : ℕ}

theorem form_expand (M : Matrix (Fin m) (Fin m) ℂ) (c : Fin m → ℂ) : form M c = ∑ p, ∑ q, ((starRingEnd ℂ) (c p) * M p q * c q).re := by
  unfold form
  simp only [dotProduct, mulVec, Complex.re_sum, Finset.mul_sum, Pi.star_apply]
  refine Finset.sum_congr rfl fun p _ => Finset.sum_congr rfl fun q _ => ?_
  rw [← mul_assoc]
  rfl

theorem form_conj (M V : Matrix (Fin m) (Fin m) ℂ) (c : Fin m → ℂ) : form (Vᴴ * M * V) c = form M (V.mulVec c) := by
  unfold form
  rw [star_mulVec, ← dotProduct_mulVec, mulVec_mulVec, mulVec_mulVec]

theorem term_le (c : Fin m → ℂ) (M : Matrix (Fin m) (Fin m) ℂ) (p q : Fin m) {K : ℝ} (h : ‖M p q‖ ≤ K) :
    |((starRingEnd ℂ) (c p) * M p q * c q).re| ≤ K * (‖c p‖ * ‖c q‖) := by
  refine (Complex.abs_re_le_norm _).trans ?_
  rw [norm_mul, norm_mul, RCLike.norm_conj]
  have h1 := mul_le_mul_of_nonneg_left h (mul_nonneg (norm_nonneg (c p)) (norm_nonneg (c q)))
  nlinarith [h1]

/-- A form with a vanishing diagonal entry: what is left couples to the other coordinates. -/
theorem form_coupling (E : Matrix (Fin m) (Fin m) ℂ) (j : Fin m) (hE : (E j j).re = 0) {C : ℝ} (hC : ∀ p q, ‖E p q‖ ≤ C) (c : Fin m → ℂ) :
    |form E c| ≤ C * ((∑ p, ‖c p‖) ^ 2 - ‖c j‖ ^ 2) := by
  have hC0 : 0 ≤ C := (norm_nonneg _).trans (hC j j)
  have e : (∑ p, ‖c p‖) ^ 2 - ‖c j‖ ^ 2 = ∑ p, ∑ q, (‖c p‖ * ‖c q‖ - if p = j ∧ q = j then ‖c j‖ ^ 2 else 0) := by
    rw [sq, Finset.sum_mul_sum]
    simp only [Finset.sum_sub_distrib]
    congr 1
    rw [Finset.sum_eq_single j, Finset.sum_eq_single j]
    · simp
    · intro q _ hq; rw [if_neg (by tauto)]
    · intro h; exact absurd (Finset.mem_univ _) h
    · intro p _ hp; exact Finset.sum_eq_zero fun q _ => by rw [if_neg (by tauto)]
    · intro h; exact absurd (Finset.mem_univ _) h
  rw [form_expand, e, Finset.mul_sum]
  refine (Finset.abs_sum_le_sum_abs _ _).trans (Finset.sum_le_sum fun p _ => ?_)
  rw [Finset.mul_sum]
  refine (Finset.abs_sum_le_sum_abs _ _).trans (Finset.sum_le_sum fun q _ => ?_)
  by_cases hpq : p = j ∧ q = j
  · obtain ⟨rfl, rfl⟩ := hpq
    rw [if_pos ⟨rfl, rfl⟩]
    have : ((starRingEnd ℂ) (c q) * E q q * c q).re = Complex.normSq (c q) * (E q q).re := by
      simp [Complex.normSq_apply]; ring
    rw [this, hE, mul_zero, abs_zero]
    have : ‖c q‖ * ‖c q‖ - ‖c q‖ ^ 2 = 0 := by ring
    rw [this, mul_zero]
  · rw [if_neg hpq, sub_zero]
    exact term_le c E p q (hC p q)

theorem form_small (R : Matrix (Fin m) (Fin m) ℂ) {η : ℝ} (hR : ∀ p q, ‖R p q‖ ≤ η) (c : Fin m → ℂ) : |form R c| ≤ η * (∑ p, ‖c p‖) ^ 2 := by
  rw [form_expand, sq, Finset.sum_mul_sum, Finset.mul_sum]
  refine (Finset.abs_sum_le_sum_abs _ _).trans (Finset.sum_le_sum fun p _ => ?_)
  rw [Finset.mul_sum]
  exact (Finset.abs_sum_le_sum_abs _ _).trans (Finset.sum_le_sum fun q _ => term_le c R p q (hR p q))

theorem form_diagonal (d : Fin m → ℝ) (c : Fin m → ℂ) : form (diagonal fun i => ((d i : ℝ) : ℂ)) c = ∑ p, d p * ‖c p‖ ^ 2 := by
  have h := form_diag (A := diagonal fun i => ((d i : ℝ) : ℂ)) (V := 1) (τ := d) (by simp) c
  rw [one_mulVec] at h
  rw [h]
  exact Finset.sum_congr rfl fun p _ => by rw [Complex.normSq_eq_norm_sq]

theorem form_add (M M' : Matrix (Fin m) (Fin m) ℂ) (c : Fin m → ℂ) : form (M + M') c = form M c + form M' c := by
  unfold form
  rw [add_mulVec, dotProduct_add, Complex.add_re]

theorem form_smul (t : ℝ) (M : Matrix (Fin m) (Fin m) ℂ) (c : Fin m → ℂ) : form ((t : ℂ) • M) c = t * form M c := by
  unfold form
  rw [smul_mulVec, dotProduct_smul, smul_eq_mul, Complex.re_ofReal_mul]

theorem form_neg (M : Matrix (Fin m) (Fin m) ℂ) (c : Fin m → ℂ) : form (-M) c = -form M c := by
  unfold form
  rw [neg_mulVec, dotProduct_neg, Complex.neg_re]

/-- Near `t = 0`, on the coordinates with negative diagonal entries and one coordinate `j` with a vanishing one, the form of
`diag d + t E + o(t)` is below `δ |t|`, if `E` has no `j, j` entry. -/
theorem perturb_neg (d : Fin m → ℝ) (j : Fin m) (hj : d j = 0) (E : Matrix (Fin m) (Fin m) ℂ) (hE : (E j j).re = 0)
    (M : ℝ → Matrix (Fin m) (Fin m) ℂ)
    (hM : ∀ p q, (fun t => M t p q - (diagonal (fun i => ((d i : ℝ) : ℂ)) : Matrix (Fin m) (Fin m) ℂ) p q - (t : ℂ) * E p q) =o[𝓝 0] (fun t : ℝ => t))
    {δ : ℝ} (hδ : 0 < δ) :
    ∀ᶠ t in 𝓝[≠] (0 : ℝ), ∀ c : Fin m → ℂ, (∀ p, c p ≠ 0 → d p < 0 ∨ p = j) → c ≠ 0 → form (M t) c < δ * |t| * ∑ p, ‖c p‖ ^ 2 := by
  set C : ℝ := ∑ p, ∑ q, ‖E p q‖ with hCdef
  have hC : ∀ p q, ‖E p q‖ ≤ C := fun p q =>
    (Finset.single_le_sum (f := fun q => ‖E p q‖) (fun _ _ => norm_nonneg _) (Finset.mem_univ q)).trans
      (Finset.single_le_sum (f := fun p => ∑ q, ‖E p q‖) (fun _ _ => Finset.sum_nonneg fun _ _ => norm_nonneg _) (Finset.mem_univ p))
  have hC0 : 0 ≤ C := (norm_nonneg _).trans (hC j j)
  set η : ℝ := δ / (4 * (m + 1)) with hη
  have hm0 : (0 : ℝ) ≤ m := Nat.cast_nonneg m
  have hη0 : 0 < η := by positivity
  have hηm : η * m ≤ δ / 4 := by
    rw [hη, div_mul_eq_mul_div, div_le_div_iff₀ (by positivity) (by norm_num)]
    nlinarith
  set K : ℝ := (C + 2 * C ^ 2 / δ) * m with hK
  have h1 : ∀ᶠ t in 𝓝[≠] (0 : ℝ), ∀ p q, ‖M t p q - (diagonal (fun i => ((d i : ℝ) : ℂ)) : Matrix (Fin m) (Fin m) ℂ) p q - (t : ℂ) * E p q‖ ≤ η * |t| := by
    refine eventually_all.2 fun p => eventually_all.2 fun q => ?_
    refine Eventually.filter_mono nhdsWithin_le_nhds (((hM p q).def hη0).mono fun t ht => ?_)
    rwa [Real.norm_eq_abs] at ht
  have h2 : ∀ᶠ t in 𝓝[≠] (0 : ℝ), ∀ p, d p < 0 → d p + |t| * K ≤ 0 := by
    refine eventually_all.2 fun p => ?_
    by_cases hp : d p < 0
    · have hc : ContinuousAt (fun t : ℝ => d p + |t| * K) 0 := by fun_prop
      have h3 : ∀ᶠ t in 𝓝 (0 : ℝ), d p + |t| * K < 0 := hc.eventually_lt continuousAt_const (by simpa using hp)
      exact (h3.filter_mono nhdsWithin_le_nhds).mono fun t ht _ => ht.le
    · exact Eventually.of_forall fun t h => absurd h hp
  filter_upwards [h1, h2, self_mem_nhdsWithin] with t ht1 ht2 ht3 c hc hc0
  have ht : 0 < |t| := abs_pos.2 ht3
  -- the three parts
  have hsplit : form (M t) c = ∑ p, d p * ‖c p‖ ^ 2 + t * form E c +
      form (M t - diagonal (fun i => ((d i : ℝ) : ℂ)) - (t : ℂ) • E) c := by
    rw [← form_diagonal, ← form_smul, ← form_add, ← form_add]
    congr 1
    abel
  have b1 := form_coupling E j hE hC c
  have b2 := form_small (M t - diagonal (fun i => ((d i : ℝ) : ℂ)) - (t : ℂ) • E) (η := η * |t|) (fun p q => ht1 p q) c
  set a := fun p => ‖c p‖ with ha
  have ha0 : ∀ p, 0 ≤ a p := fun p => norm_nonneg _
  set S := ∑ p ∈ Finset.univ.erase j, a p with hS
  have hS0 : 0 ≤ S := Finset.sum_nonneg fun p _ => ha0 p
  have hsum : ∑ p, a p = a j + S := (Finset.add_sum_erase _ _ (Finset.mem_univ j)).symm
  set T := ∑ p ∈ Finset.univ.erase j, a p ^ 2 with hT
  have hT0 : 0 ≤ T := Finset.sum_nonneg fun p _ => sq_nonneg _
  have hsumsq : ∑ p, a p ^ 2 = a j ^ 2 + T := (Finset.add_sum_erase _ _ (Finset.mem_univ j)).symm
  have hST : S ^ 2 ≤ m * T := by
    refine (sq_sum_le_card_mul_sum_sq (s := Finset.univ.erase j) (f := a)).trans ?_
    refine mul_le_mul_of_nonneg_right ?_ hT0
    have : (Finset.univ.erase j).card ≤ m := (Finset.card_erase_le).trans (by simp)
    exact_mod_cast this
  have hall : (∑ p, a p) ^ 2 ≤ m * ∑ p, a p ^ 2 := by
    simpa using sq_sum_le_card_mul_sum_sq (s := (Finset.univ : Finset (Fin m))) (f := a)
  have hpos : 0 < ∑ p, a p ^ 2 := by
    obtain ⟨p, hp⟩ := Function.ne_iff.1 hc0
    refine Finset.sum_pos' (fun p _ => sq_nonneg _) ⟨p, Finset.mem_univ _, ?_⟩
    exact pow_pos (norm_pos_iff.2 hp) 2
  have hdiag : ∑ p, d p * a p ^ 2 ≤ -(|t| * K) * T := by
    rw [← Finset.add_sum_erase _ _ (Finset.mem_univ j), hj, zero_mul, zero_add, hT, Finset.mul_sum]
    refine Finset.sum_le_sum fun p hp => ?_
    by_cases hcp : c p = 0
    · simp [ha, hcp]
    · rcases hc p hcp with h | h
      · exact mul_le_mul_of_nonneg_right (by linarith [ht2 p h]) (sq_nonneg _)
      · exact absurd h (Finset.ne_of_mem_erase hp)
  have b1' : t * form E c ≤ |t| * (C * (2 * a j * S + S ^ 2)) := by
    refine (le_abs_self _).trans ?_
    rw [abs_mul]
    refine mul_le_mul_of_nonneg_left (b1.trans (le_of_eq ?_)) ht.le
    show C * ((∑ p, a p) ^ 2 - a j ^ 2) = _
    rw [hsum]; ring
  have b2' : form (M t - diagonal (fun i => ((d i : ℝ) : ℂ)) - (t : ℂ) • E) c ≤ |t| * (δ / 4 * ∑ p, a p ^ 2) := by
    refine (le_abs_self _).trans (b2.trans ?_)
    have h5 : η * (∑ p, a p) ^ 2 ≤ δ / 4 * ∑ p, a p ^ 2 := by
      refine (mul_le_mul_of_nonneg_left hall hη0.le).trans ?_
      rw [← mul_assoc]
      exact mul_le_mul_of_nonneg_right hηm hpos.le
    have := mul_le_mul_of_nonneg_left h5 ht.le
    show η * |t| * (∑ p, a p) ^ 2 ≤ _
    linarith
  have b3 : C * (2 * a j * S + S ^ 2) ≤ δ / 2 * a j ^ 2 + K * T := by
    have e1 : 2 * C * a j * S ≤ δ / 2 * a j ^ 2 + 2 * C ^ 2 / δ * S ^ 2 := by
      have h6 : 0 ≤ (δ * a j - 2 * C * S) ^ 2 / (2 * δ) := by positivity
      have h7 : (δ * a j - 2 * C * S) ^ 2 / (2 * δ) = δ / 2 * a j ^ 2 - 2 * C * a j * S + 2 * C ^ 2 / δ * S ^ 2 := by
        field_simp; ring
      linarith
    have e2 : (C + 2 * C ^ 2 / δ) * S ^ 2 ≤ K * T := by
      rw [hK, mul_assoc]
      exact mul_le_mul_of_nonneg_left hST (by positivity)
    nlinarith
  have b3' := mul_le_mul_of_nonneg_left b3 ht.le
  rw [hsplit]
  show ∑ p, d p * a p ^ 2 + t * form E c + _ < δ * |t| * ∑ p, a p ^ 2
  have hfin : |t| * (δ / 2 * a j ^ 2) ≤ |t| * (δ / 2 * ∑ p, a p ^ 2) := by
    refine mul_le_mul_of_nonneg_left (mul_le_mul_of_nonneg_left ?_ (by positivity)) ht.le
    rw [hsumsq]; linarith
  have hpos2 : 0 < |t| * δ * ∑ p, a p ^ 2 := by positivity
  nlinarith

/-- Too few conditions: no `n` independent eigenvectors with eigenvalues up to `lam`. -/
theorem no_count {A B : Matrix (Fin m) (Fin m) ℂ} (hA : A.IsHermitian) (hB : B.PosDef) {lam : ℝ} {F : Type*} [AddCommGroup F] [Module ℂ F]
    [FiniteDimensional ℂ F] (Φ : (Fin m → ℂ) →ₗ[ℂ] F) (hdim : Module.finrank ℂ F < n) (hgt : ∀ x, x ≠ 0 → Φ x = 0 → lam * form B x < form A x) :
    ¬ ∃ f : Fin n → Fin m → ℂ, LinearIndependent ℂ f ∧ ∀ i, ∃ mu : ℝ, mu ≤ lam ∧ A.mulVec (f i) = (mu : ℂ) • B.mulVec (f i) := by
  rintro ⟨f, hf, hev⟩
  let L : (Fin n → ℂ) →ₗ[ℂ] F := Φ.comp (Fintype.linearCombination ℂ f)
  have hk : LinearMap.ker L ≠ ⊥ := LinearMap.ker_ne_bot_of_finrank_lt (by simpa using hdim)
  obtain ⟨a, ha, ha0⟩ := (Submodule.ne_bot_iff _).1 hk
  have hx : Fintype.linearCombination ℂ f a = ∑ i, a i • f i := Fintype.linearCombination_apply ℂ f a
  refine absurd (low_span hA hB f hev (x := ∑ i, a i • f i) ?_) (not_le.2 (hgt _ (fun h0 => ha0 ?_) ?_))
  · exact Submodule.sum_mem _ fun i _ => Submodule.smul_mem _ _ (Submodule.subset_span ⟨i, rfl⟩)
  · exact funext fun i => Fintype.linearIndependent_iff.1 hf a h0 i
  · rw [← hx]; exact ha

/-- The coordinates with the given indices. -/
def coords (W : Matrix (Fin m) (Fin m) ℂ) (T : Finset (Fin m)) : (Fin m → ℂ) →ₗ[ℂ] (T → ℂ) where
  toFun x p := W.mulVec x p
  map_add' x y := by funext p; simp [mulVec_add]
  map_smul' c x := by funext p; simp [mulVec_smul]

theorem coords_zero {W : Matrix (Fin m) (Fin m) ℂ} {T : Finset (Fin m)} {x : Fin m → ℂ} (h : coords W T x = 0) {p : Fin m} (hp : p ∈ T) :
    W.mulVec x p = 0 := congrFun h ⟨p, hp⟩

/-- `lam` is the `n`-th eigenvalue of the pencil from below, counted with multiplicity. -/
def IsNth (A B : Matrix (Fin m) (Fin m) ℂ) (n : ℕ) (lam : ℝ) : Prop :=
  (∃ f : Fin n → Fin m → ℂ, LinearIndependent ℂ f ∧ ∀ i, ∃ mu : ℝ, mu ≤ lam ∧ A.mulVec (f i) = (mu : ℂ) • B.mulVec (f i)) ∧
  ∀ nu < lam, ¬ ∃ f : Fin n → Fin m → ℂ, LinearIndependent ℂ f ∧ ∀ i, ∃ mu : ℝ, mu ≤ nu ∧ A.mulVec (f i) = (mu : ℂ) • B.mulVec (f i)

/-- Coordinates in which the pencil is diagonal, with the `n`-th eigenvalue in place `j` only. -/
theorem simple_diag {A B : Matrix (Fin m) (Fin m) ℂ} (hA : A.IsHermitian) (hB : B.PosDef) {lam : ℝ} (hn : IsNth A B n lam) {x0 : Fin m → ℂ}
    (hx0 : A.mulVec x0 = (lam : ℂ) • B.mulVec x0) (hnorm : form B x0 = 1)
    (hs : ∀ y, A.mulVec y = (lam : ℂ) • B.mulVec y → ∃ c : ℂ, y = c • x0) :
    ∃ (V : Matrix (Fin m) (Fin m) ℂ) (τ : Fin m → ℝ) (j : Fin m) (u : ℂ), Vᴴ * B * V = 1 ∧ Vᴴ * A * V = diagonal (fun i => ((τ i : ℝ) : ℂ)) ∧
      (∀ p, τ p = lam ↔ p = j) ∧ x0 = V.mulVec (Pi.single j u) ∧ Complex.normSq u = 1 ∧ (Finset.univ.filter fun p => τ p < lam).card + 1 = n := by
  obtain ⟨V, τ, hVB, hVA⟩ := pencil_diag hA hB
  have inv1 : V * (Vᴴ * B) = 1 := mul_eq_one_comm.mp hVB
  have co : ∀ x, V.mulVec ((Vᴴ * B).mulVec x) = x := fun x => by rw [mulVec_mulVec, inv1, one_mulVec]
  have hAV : A * V = B * V * diagonal (fun i => ((τ i : ℝ) : ℂ)) := by
    have l : Vᴴ * (B * V) = 1 := by rw [← Matrix.mul_assoc]; exact hVB
    have r : B * V * Vᴴ = 1 := mul_eq_one_comm.mp l
    calc A * V = B * V * Vᴴ * (A * V) := by rw [r, Matrix.one_mul]
      _ = B * V * (Vᴴ * A * V) := by simp only [Matrix.mul_assoc]
      _ = _ := by rw [hVA]
  -- coordinate vectors are eigenvectors
  have hev : ∀ p, A.mulVec (V.mulVec (Pi.single p 1)) = (τ p : ℂ) • B.mulVec (V.mulVec (Pi.single p 1)) := by
    intro p
    rw [mulVec_mulVec, mulVec_mulVec, hAV, ← mulVec_mulVec, ← mulVec_smul]
    congr 1
    funext q
    rw [mulVec_diagonal, Pi.smul_apply, smul_eq_mul]
    by_cases h : q = p
    · subst h; simp
    · rw [Pi.single_eq_of_ne h]; simp
  have hinj : ∀ a b : Fin m → ℂ, V.mulVec a = V.mulVec b → a = b := by
    intro a b h
    have := congrArg (Vᴴ * B).mulVec h
    rwa [mulVec_mulVec, mulVec_mulVec, hVB, one_mulVec, one_mulVec] at this
  set c := (Vᴴ * B).mulVec x0 with hc
  have hcx : V.mulVec c = x0 := co x0
  have hx0ne : x0 ≠ 0 := by
    intro h0
    rw [h0] at hnorm
    simp [form] at hnorm
  have hcz : ∀ p, τ p ≠ lam → c p = 0 := by
    intro p hp
    have h1 : (Vᴴ * A * V).mulVec c = (lam : ℂ) • c := by
      have : (Vᴴ * A * V).mulVec c = Vᴴ.mulVec (A.mulVec x0) := by
        rw [← mulVec_mulVec, hcx, mulVec_mulVec]
      rw [this, hx0, mulVec_smul, mulVec_mulVec]
    rw [hVA] at h1
    have h2 := congrFun h1 p
    rw [mulVec_diagonal, Pi.smul_apply, smul_eq_mul] at h2
    have h3 : ((τ p : ℂ) - (lam : ℂ)) * c p = 0 := by rw [sub_mul, h2, sub_self]
    refine (mul_eq_zero.mp h3).resolve_left ?_
    rw [← Complex.ofReal_sub]
    exact_mod_cast sub_ne_zero.2 hp
  have hc0 : c ≠ 0 := by
    intro h0
    rw [h0, mulVec_zero] at hcx
    exact hx0ne hcx.symm
  obtain ⟨j, hj⟩ := Function.ne_iff.1 hc0
  have hτj : τ j = lam := by
    by_contra h
    exact hj (hcz j h)
  have huniq : ∀ p, τ p = lam ↔ p = j := by
    intro p
    refine ⟨fun hp => ?_, fun h => h ▸ hτj⟩
    by_contra hpj
    obtain ⟨s, hs1⟩ := hs _ (by have := hev p; rwa [hp] at this)
    obtain ⟨s', hs2⟩ := hs _ (by have := hev j; rwa [hτj] at this)
    have e1 : (Pi.single p 1 : Fin m → ℂ) = s • c := hinj _ _ (by rw [hs1, mulVec_smul, hcx])
    have e2 : (Pi.single j 1 : Fin m → ℂ) = s' • c := hinj _ _ (by rw [hs2, mulVec_smul, hcx])
    have f1 := congrFun e1 j
    have f2 := congrFun e1 p
    rw [Pi.single_eq_of_ne (Ne.symm hpj), Pi.smul_apply, smul_eq_mul] at f1
    rw [Pi.single_eq_same, Pi.smul_apply, smul_eq_mul] at f2
    have hs0 : s = 0 := (mul_eq_zero.1 f1.symm).resolve_right hj
    rw [hs0, zero_mul] at f2
    exact one_ne_zero f2
  have hcs : c = Pi.single j (c j) := by
    funext p
    by_cases h : p = j
    · subst h; simp
    · rw [Pi.single_eq_of_ne h]; exact hcz p (fun h' => h ((huniq p).1 h'))
  refine ⟨V, τ, j, c j, hVB, hVA, huniq, by rw [← hcs, hcx], ?_, ?_⟩
  · have h1 := form_diag (hVB.trans one_diag) c
    rw [hcx, hnorm, Finset.sum_eq_single j] at h1
    · simpa using h1.symm
    · intro p _ hp
      rw [hcz p (fun h' => hp ((huniq p).1 h'))]; simp
    · intro h; exact absurd (Finset.mem_univ _) h
  · -- both inequalities for `n`
    have hform : ∀ x nu, form A x - nu * form B x = ∑ p, (τ p - nu) * Complex.normSq ((Vᴴ * B).mulVec x p) := by
      intro x nu
      have h1 := form_diag hVA ((Vᴴ * B).mulVec x)
      have h2 := form_diag (hVB.trans one_diag) ((Vᴴ * B).mulVec x)
      rw [co] at h1 h2
      rw [h1, h2, Finset.mul_sum, ← Finset.sum_sub_distrib]
      exact Finset.sum_congr rfl fun p _ => by ring
    have hlt : (Finset.univ.filter fun p => τ p < lam).card < n := by
      by_contra hcon
      push Not at hcon
      -- a bound below `lam` for all the smaller ones
      obtain ⟨nu, hnu, hle⟩ : ∃ nu < lam, ∀ p, τ p < lam → τ p ≤ nu := by
        by_cases he : (Finset.univ.filter fun p => τ p < lam).Nonempty
        · obtain ⟨q, hq, hmax⟩ := Finset.exists_max_image _ τ he
          exact ⟨τ q, (Finset.mem_filter.1 hq).2, fun p hp => hmax p (Finset.mem_filter.2 ⟨Finset.mem_univ _, hp⟩)⟩
        · exact ⟨lam - 1, by linarith, fun p hp => absurd ⟨p, Finset.mem_filter.2 ⟨Finset.mem_univ _, hp⟩⟩ he⟩
      refine hn.2 nu hnu (count_conditions hA hB (coords (Vᴴ * B) (Finset.univ.filter fun p => ¬ τ p < lam)) ?_ fun x hx => ?_)
      · have := Finset.card_filter_add_card_filter_not (s := (Finset.univ : Finset (Fin m))) (fun p => τ p < lam)
        rw [Finset.card_univ, Fintype.card_fin] at this
        simp only [Module.finrank_fintype_fun_eq_card, Fintype.card_coe]
        omega
      · have := hform x nu
        have h4 : ∑ p, (τ p - nu) * Complex.normSq ((Vᴴ * B).mulVec x p) ≤ 0 := by
          refine Finset.sum_nonpos fun p _ => ?_
          by_cases hp : τ p < lam
          · exact mul_nonpos_of_nonpos_of_nonneg (by linarith [hle p hp]) (Complex.normSq_nonneg _)
          · rw [coords_zero hx (Finset.mem_filter.2 ⟨Finset.mem_univ _, hp⟩)]; simp
        linarith
    have hle : n ≤ (Finset.univ.filter fun p => τ p ≤ lam).card := by
      by_contra hcon
      push Not at hcon
      refine no_count hA hB (coords (Vᴴ * B) (Finset.univ.filter fun p => τ p ≤ lam)) (n := n) ?_ (fun x hx0 hx => ?_) hn.1
      · simpa only [Module.finrank_fintype_fun_eq_card, Fintype.card_coe] using hcon
      · have := hform x lam
        have h4 : 0 < ∑ p, (τ p - lam) * Complex.normSq ((Vᴴ * B).mulVec x p) := by
          have hne : (Vᴴ * B).mulVec x ≠ 0 := by
            intro h0
            have := co x
            rw [h0, mulVec_zero] at this
            exact hx0 this.symm
          obtain ⟨q, hq⟩ := Function.ne_iff.1 hne
          have hnn : ∀ p ∈ Finset.univ, 0 ≤ (τ p - lam) * Complex.normSq ((Vᴴ * B).mulVec x p) := by
            intro p _
            by_cases hp : τ p ≤ lam
            · rw [coords_zero hx (Finset.mem_filter.2 ⟨Finset.mem_univ _, hp⟩)]; simp
            · exact mul_nonneg (by linarith [not_le.1 hp]) (Complex.normSq_nonneg _)
          refine Finset.sum_pos' hnn ⟨q, Finset.mem_univ _, mul_pos ?_ (Complex.normSq_pos.2 hq)⟩
          by_contra h
          exact hq (coords_zero hx (Finset.mem_filter.2 ⟨Finset.mem_univ _, by linarith⟩))
        linarith
    have hcard : (Finset.univ.filter fun p => τ p ≤ lam).card = (Finset.univ.filter fun p => τ p < lam).card + 1 := by
      have e : (Finset.univ.filter fun p => τ p ≤ lam) = insert j (Finset.univ.filter fun p => τ p < lam) := by
        ext p
        simp only [Finset.mem_filter, Finset.mem_univ, true_and, Finset.mem_insert, le_iff_lt_or_eq, huniq p]
        tauto
      rw [e, Finset.card_insert_of_notMem]
      simp [hτj]
    omega

/-- First-order perturbation theory.  Let the Hermitian matrices `A t` and the positive definite matrices `B t` be differentiable at 0, and let
`lam t` be the `n`-th eigenvalue of `A t x = lam B t x` for every `t`.  If the `n`-th eigenvalue is simple at 0, `lam` is differentiable there, with
derivative `x0* A' x0 - lam x0* B' x0`. -/
theorem hasDerivAt_nth {A B : ℝ → Matrix (Fin m) (Fin m) ℂ} {A' B' : Matrix (Fin m) (Fin m) ℂ} (hA : ∀ t, (A t).IsHermitian) (hB : ∀ t, (B t).PosDef)
    (dA : ∀ p q, HasDerivAt (fun t => A t p q) (A' p q) 0) (dB : ∀ p q, HasDerivAt (fun t => B t p q) (B' p q) 0) {lam : ℝ → ℝ}
    (hn : ∀ t, IsNth (A t) (B t) n (lam t)) {x0 : Fin m → ℂ} (hx0 : (A 0).mulVec x0 = (lam 0 : ℂ) • (B 0).mulVec x0) (hnorm : form (B 0) x0 = 1)
    (hs : ∀ y, (A 0).mulVec y = (lam 0 : ℂ) • (B 0).mulVec y → ∃ c : ℂ, y = c • x0) :
    HasDerivAt lam (form A' x0 - lam 0 * form B' x0) 0 := by
  obtain ⟨V, τ, j, u, hVB, hVA, huniq, hx, hu, hcard⟩ := simple_diag (hA 0) (hB 0) (hn 0) hx0 hnorm hs
  set W := Vᴴ * B 0 with hW
  have inv1 : V * W = 1 := mul_eq_one_comm.mp hVB
  have co : ∀ x, V.mulVec (W.mulVec x) = x := fun x => by rw [mulVec_mulVec, inv1, one_mulVec]
  set l0 := lam 0 with hl0
  set g := form A' x0 - l0 * form B' x0 with hg
  -- the perturbed pencil in these coordinates
  set At := fun t => Vᴴ * A t * V with hAt
  set Bt := fun t => Vᴴ * B t * V with hBt
  have dconj : ∀ (M : ℝ → Matrix (Fin m) (Fin m) ℂ) (M' : Matrix (Fin m) (Fin m) ℂ), (∀ p q, HasDerivAt (fun t => M t p q) (M' p q) 0) →
      ∀ p q, HasDerivAt (fun t => (Vᴴ * M t * V) p q) ((Vᴴ * M' * V) p q) 0 := by
    intro M M' h p q
    simp only [Matrix.mul_apply, Finset.sum_mul]
    refine HasDerivAt.fun_sum fun r _ => HasDerivAt.fun_sum fun s _ => ?_
    exact ((h s r).const_mul _).mul_const _
  have dAt := dconj A A' dA
  have dBt := dconj B B' dB
  -- the combination whose sign decides
  set E : Matrix (Fin m) (Fin m) ℂ := Vᴴ * A' * V - (l0 : ℂ) • (Vᴴ * B' * V) - (g : ℂ) • 1 with hE
  have hform_x0 : ∀ M : Matrix (Fin m) (Fin m) ℂ, form M x0 = ((Vᴴ * M * V) j j).re := by
    intro M
    rw [hx, ← form_conj, form_expand, Finset.sum_eq_single j, Finset.sum_eq_single j]
    · rw [Pi.single_eq_same]
      have : ((starRingEnd ℂ) u * (Vᴴ * M * V) j j * u).re = Complex.normSq u * ((Vᴴ * M * V) j j).re := by
        simp [Complex.normSq_apply]; ring
      rw [this, hu, one_mul]
    · intro q _ hq; rw [Pi.single_eq_of_ne hq]; simp
    · intro h; exact absurd (Finset.mem_univ _) h
    · intro p _ hp
      refine Finset.sum_eq_zero fun q _ => ?_
      rw [Pi.single_eq_of_ne hp]; simp
    · intro h; exact absurd (Finset.mem_univ _) h
  have hEj : (E j j).re = 0 := by
    rw [hE]
    simp only [Matrix.sub_apply, Matrix.smul_apply, Matrix.one_apply_eq, smul_eq_mul, mul_one, Complex.sub_re, Complex.re_ofReal_mul, Complex.ofReal_re]
    rw [← hform_x0, ← hform_x0, hg]
    ring
  set M := fun t : ℝ => At t - ((l0 + t * g : ℝ) : ℂ) • Bt t with hM
  have hB1 : ∀ p q, Bt 0 p q = (1 : Matrix (Fin m) (Fin m) ℂ) p q := fun p q => by rw [hBt]; simp only; rw [hVB]
  have hMo : ∀ p q, (fun t => M t p q - (diagonal (fun i => ((τ i - l0 : ℝ) : ℂ)) : Matrix (Fin m) (Fin m) ℂ) p q - (t : ℂ) * E p q) =o[𝓝 0] (fun t : ℝ => t) := by
    intro p q
    have hd : HasDerivAt (fun t => M t p q) (E p q) 0 := by
      have h1 := dAt p q
      have h2 := dBt p q
      have h3 : HasDerivAt (fun t : ℝ => ((l0 + t * g : ℝ) : ℂ)) (g : ℂ) 0 := by
        have : HasDerivAt (fun t : ℝ => l0 + t * g) g 0 := by
          simpa using ((hasDerivAt_id (0 : ℝ)).mul_const g).const_add l0
        exact this.ofReal_comp
      have h4 := h1.sub (h3.mul h2)
      have e : (Vᴴ * A' * V) p q - ((g : ℂ) * Bt 0 p q + ((l0 + 0 * g : ℝ) : ℂ) * (Vᴴ * B' * V) p q) = E p q := by
        rw [hB1, hE]
        simp only [Matrix.sub_apply, Matrix.smul_apply, smul_eq_mul, zero_mul, add_zero]
        ring
      rw [← e]
      exact h4
    have hd2 := hasDerivAt_iff_isLittleO.1 hd
    have e0 : M 0 p q = (diagonal (fun i => ((τ i - l0 : ℝ) : ℂ)) : Matrix (Fin m) (Fin m) ℂ) p q := by
      have : M 0 = diagonal (fun i => ((τ i : ℝ) : ℂ)) - (l0 : ℂ) • (1 : Matrix (Fin m) (Fin m) ℂ) := by
        rw [hM]
        simp only [zero_mul, add_zero]
        rw [hAt, hBt]
        simp only
        rw [hVA, hVB]
      rw [this]
      by_cases h : p = q
      · subst h; simp
      · simp [h]
    refine hd2.congr (fun t => ?_) (fun t => by simp)
    rw [e0, sub_zero, Complex.real_smul]
  -- the mass stays near one
  have hmass : ∀ᶠ t in 𝓝[≠] (0 : ℝ), ∀ c : Fin m → ℂ, 1 / 2 * ∑ p, ‖c p‖ ^ 2 ≤ form (Bt t) c := by
    set η : ℝ := 1 / (2 * (m + 1)) with hη
    have hη0 : 0 < η := by positivity
    have h1 : ∀ᶠ t in 𝓝 (0 : ℝ), ∀ p q, ‖(Bt t - 1) p q‖ ≤ η := by
      refine eventually_all.2 fun p => eventually_all.2 fun q => ?_
      have hc : ContinuousAt (fun t => ‖Bt t p q - (1 : Matrix (Fin m) (Fin m) ℂ) p q‖) 0 := ((dBt p q).continuousAt.sub continuousAt_const).norm
      have h3 : ∀ᶠ t in 𝓝 (0 : ℝ), ‖Bt t p q - (1 : Matrix (Fin m) (Fin m) ℂ) p q‖ < η :=
        hc.eventually_lt continuousAt_const (by rw [hB1]; simpa using hη0)
      exact h3.mono fun t ht => ht.le
    refine (h1.filter_mono nhdsWithin_le_nhds).mono fun t ht c => ?_
    have h2 := form_small (Bt t - 1) ht c
    have h3 : form (Bt t) c = form (Bt t - 1) c + ∑ p, ‖c p‖ ^ 2 := by
      have h4 : form (1 : Matrix (Fin m) (Fin m) ℂ) c = ∑ p, ‖c p‖ ^ 2 := by
        rw [one_diag, form_diagonal]; simp
      rw [← h4, ← form_add, sub_add_cancel]
    have hall : (∑ p, ‖c p‖) ^ 2 ≤ m * ∑ p, ‖c p‖ ^ 2 := by
      simpa using sq_sum_le_card_mul_sum_sq (s := (Finset.univ : Finset (Fin m))) (f := fun p => ‖c p‖)
    have hnn : 0 ≤ ∑ p, ‖c p‖ ^ 2 := Finset.sum_nonneg fun _ _ => sq_nonneg _
    have h5 : η * (∑ p, ‖c p‖) ^ 2 ≤ 1 / 2 * ∑ p, ‖c p‖ ^ 2 := by
      refine (mul_le_mul_of_nonneg_left hall hη0.le).trans ?_
      rw [← mul_assoc]
      refine mul_le_mul_of_nonneg_right ?_ hnn
      rw [hη, div_mul_eq_mul_div, div_le_div_iff₀ (by positivity) (by norm_num)]
      nlinarith [(Nat.cast_nonneg m : (0 : ℝ) ≤ m)]
    have := (abs_le.1 h2).1
    linarith
  rw [hasDerivAt_iff_isLittleO]
  refine IsLittleO.of_bound fun ε hε => ?_
  have key1 := perturb_neg (fun p => τ p - l0) j (by simp only [(huniq j).2 rfl, sub_self]) E hEj M hMo (δ := ε / 2) (by positivity)
  have key2 := perturb_neg (fun p => -(τ p - l0)) j (by simp only [(huniq j).2 rfl, sub_self, neg_zero]) (-E) (by simp [hEj]) (fun t => -M t)
    (fun p q => by
      refine (hMo p q).neg_left.congr_left fun t => ?_
      have : (diagonal (fun i => ((-(τ i - l0) : ℝ) : ℂ)) : Matrix (Fin m) (Fin m) ℂ) p q =
          -(diagonal (fun i => ((τ i - l0 : ℝ) : ℂ)) : Matrix (Fin m) (Fin m) ℂ) p q := by
        by_cases h : p = q
        · subst h; simp
        · simp [h]
      rw [this, Matrix.neg_apply, Matrix.neg_apply]
      ring) (δ := ε / 2) (by positivity)
  have hev : ∀ᶠ t in 𝓝[≠] (0 : ℝ), ‖lam t - l0 - (t - 0) • g‖ ≤ ε * ‖t - 0‖ := by
    filter_upwards [key1, key2, hmass, self_mem_nhdsWithin] with t k1 k2 hm ht
    have habs : 0 < |t| := abs_pos.2 ht
    have hfx : ∀ x s, form (A t) x - s * form (B t) x = form (M t) (W.mulVec x) - (s - (l0 + t * g)) * form (Bt t) (W.mulVec x) := by
      intro x s
      have e1 : form (At t) (W.mulVec x) = form (A t) x := by rw [hAt]; simp only; rw [form_conj, co]
      have e2 : form (Bt t) (W.mulVec x) = form (B t) x := by rw [hBt]; simp only; rw [form_conj, co]
      have e3 : form (M t) (W.mulVec x) = form (At t) (W.mulVec x) - (l0 + t * g) * form (Bt t) (W.mulVec x) := by
        rw [hM]
        simp only
        rw [sub_eq_add_neg, form_add, form_neg, form_smul]
        ring
      rw [e3, e1, e2]; ring
    have hWne : ∀ x, x ≠ 0 → W.mulVec x ≠ 0 := by
      intro x hx0 h0
      have := co x
      rw [h0, mulVec_zero] at this
      exact hx0 this.symm
    rw [sub_zero, smul_eq_mul, Real.norm_eq_abs, Real.norm_eq_abs, abs_le]
    constructor
    · -- from below
      by_contra hcon
      push Not at hcon
      have hle : lam t ≤ l0 + t * g - ε * |t| := by linarith
      refine no_count (hA t) (hB t) (n := n) (lam := l0 + t * g - ε * |t|) (coords W (Finset.univ.filter fun p => τ p < l0)) ?_ (fun x hx0 hx => ?_) ?_
      · simp only [Module.finrank_fintype_fun_eq_card, Fintype.card_coe]
        omega
      · have h1 := k2 (W.mulVec x) (fun p hp => ?_) (hWne x hx0)
        · have h2 := hm (W.mulVec x)
          have h3 := hfx x (l0 + t * g - ε * |t|)
          rw [form_neg] at h1
          have h4 := mul_le_mul_of_nonneg_left h2 (mul_pos hε habs).le
          nlinarith
        · have hnlt : ¬ τ p < l0 := fun h => hp (coords_zero hx (Finset.mem_filter.2 ⟨Finset.mem_univ _, h⟩))
          rcases (not_lt.1 hnlt).eq_or_lt with h | h
          · exact Or.inr ((huniq p).1 h.symm)
          · left; linarith
      · obtain ⟨f, hf, hfe⟩ := (hn t).1
        exact ⟨f, hf, fun i => by obtain ⟨mu, h1, h2⟩ := hfe i; exact ⟨mu, h1.trans hle, h2⟩⟩
    · -- from above
      by_contra hcon
      push Not at hcon
      refine (hn t).2 (l0 + t * g + ε * |t|) (by linarith) (count_conditions (hA t) (hB t)
        (coords W (Finset.univ.filter fun p => ¬ τ p ≤ l0)) ?_ fun x hx => ?_)
      · have h1 := Finset.card_filter_add_card_filter_not (s := (Finset.univ : Finset (Fin m))) (fun p => τ p ≤ l0)
        rw [Finset.card_univ, Fintype.card_fin] at h1
        have e : (Finset.univ.filter fun p => τ p ≤ l0) = insert j (Finset.univ.filter fun p => τ p < l0) := by
          ext p
          simp only [Finset.mem_filter, Finset.mem_univ, true_and, Finset.mem_insert, le_iff_lt_or_eq, huniq p]
          tauto
        rw [e, Finset.card_insert_of_notMem (by simp [(huniq j).2 rfl])] at h1
        simp only [Module.finrank_fintype_fun_eq_card, Fintype.card_coe]
        omega
      · by_cases hx0 : x = 0
        · subst hx0; simp [form]
        · have h1 := k1 (W.mulVec x) (fun p hp => ?_) (hWne x hx0)
          · have h2 := hm (W.mulVec x)
            have h3 := hfx x (l0 + t * g + ε * |t|)
            have h4 := mul_le_mul_of_nonneg_left h2 (mul_pos hε habs).le
            nlinarith
          · have hle : τ p ≤ l0 := by
              by_contra h
              exact hp (coords_zero hx (Finset.mem_filter.2 ⟨Finset.mem_univ _, h⟩))
            rcases hle.lt_or_eq with h | h
            · left; linarith
            · exact Or.inr ((huniq p).1 h)
  have h0 : ‖lam 0 - l0 - ((0 : ℝ) - 0) • g‖ ≤ ε * ‖(0 : ℝ) - 0‖ := by simp [hl0]
  rw [eventually_nhdsWithin_iff] at hev
  refine hev.mono fun t ht => ?_
  by_cases h : t = 0
  · subst h; exact h0
  · exact ht h

end Mpb.Perturb

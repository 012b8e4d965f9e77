import Verif.RealBuild.Lemmas
import Verif.Invariance.Monotone
import Mathlib.LinearAlgebra.Dimension.StrongRankCondition
import Mathlib.LinearAlgebra.LinearIndependent.Lemmas

/-! # Lemmas for C111: the operators band by band, and choosing real modes -/

namespace Mpb.RealBuild
open Mpb.Maxwell Mpb.Maxwell.Spec Mpb.Invariance Mpb.Invariance.Spec Mpb.Field Spec

theorem castP_inj {v w : ℝ × ℝ} (h : castP v = castP w) : v = w := by
  have h1 := congrArg Prod.fst h
  have h2 := congrArg Prod.snd h
  exact Prod.ext (Complex.ofReal_injective h1) (Complex.ofReal_injective h2)

/-- A band of reals as a band of complex numbers. -/
def cband (p : ℕ) (X : ℕ → ℝ) (b : ℕ) : ℕ → ℂ × ℂ := fun G => castP (bandR p X b G)

theorem band_asComplex (p : ℕ) (X : ℕ → ℝ) (b : ℕ) : band p (asComplex X) b = cband p X b := rfl

/-- The band loop with reals. -/
theorem chunksR_apply {N p nfb : ℕ} (hn : 0 < nfb) (step : (ℕ → ℝ) → ℕ × ℕ → (ℕ → ℝ)) (A : ℕ → ℕ → ℂ × ℂ)
    (hstep : ∀ (X : ℕ → ℝ) (ch : ℕ × ℕ), ch.1 + ch.2 ≤ p →
      (∀ G < N, ∀ b < ch.2, cband p (step X ch) (ch.1 + b) G = A (ch.1 + b) G) ∧
      (∀ a, (∀ G < N, ∀ b < ch.2, ∀ c < 2, a ≠ (G * 2 + c) * p + (ch.1 + b)) → step X ch a = X a)) (Xout : ℕ → ℝ) :
    let R := (bandChunks nfb p 0).foldl step Xout
    (∀ b < p, ∀ G < N, cband p R b G = A b G) ∧ (∀ a, N * 2 * p ≤ a → R a = Xout a) := by
  intro R
  have hre : ∀ X ch, ch.1 + ch.2 ≤ p → ∀ G < N, ∀ b < ch.2, bandR p (step X ch) (ch.1 + b) G = ((A (ch.1 + b) G).1.re, (A (ch.1 + b) G).2.re) := by
    intro X ch hch G hG b hb
    rw [← (hstep X ch hch).1 G hG b hb]
    simp [cband, castP]
  have him : ∀ b < p, ∀ G < N, castP ((A b G).1.re, (A b G).2.re) = A b G := by
    intro b hb G hG
    obtain ⟨ch, hm, c1, c2⟩ := bandChunks_cover hn (Nat.zero_le b) hb
    have h := (hstep Xout ch (bandChunks_bound hm).1).1 G hG (b - ch.1) (by omega)
    rw [show ch.1 + (b - ch.1) = b by omega] at h
    rw [← h]
    simp [cband, castP]
  obtain ⟨h1, h2⟩ := foldl_const_spec
    (fun (ch : ℕ × ℕ) a => ∃ G < N, ∃ b < ch.2, ∃ c < 2, a = (G * 2 + c) * p + (ch.1 + b))
    (fun a => if a / p % 2 = 0 then (A (a % p) (a / p / 2)).1.re else (A (a % p) (a / p / 2)).2.re) step (bandChunks nfb p 0) Xout
    (fun ch hm m a ha => (hstep m ch (bandChunks_bound hm).1).2 a (by push Not at ha; exact ha))
    (fun ch hm m a ha => by
      obtain ⟨G, hG, b, hb, c, hc, rfl⟩ := ha
      have hbd := (bandChunks_bound hm).1
      have hp : 0 < p := by omega
      have e1 : ((G * 2 + c) * p + (ch.1 + b)) / p = G * 2 + c := by
        rw [Nat.add_comm, Nat.add_mul_div_right _ _ hp, Nat.div_eq_of_lt (by omega), Nat.zero_add]
      have e2 : ((G * 2 + c) * p + (ch.1 + b)) % p = ch.1 + b := by
        rw [Nat.add_comm, Nat.add_mul_mod_self_right, Nat.mod_eq_of_lt (by omega)]
      have e3 : (G * 2 + c) / 2 = G := by omega
      have := hre m ch hbd G hG b hb
      obtain ⟨g1, g2⟩ := Prod.mk.injEq .. ▸ this
      rw [e1, e2, e3]
      interval_cases c
      · rw [if_pos (by omega)]; exact g1
      · rw [if_neg (by omega)]; exact g2)
  refine ⟨fun b hb G hG => ?_, fun a ha => ?_⟩
  · obtain ⟨ch, hm, c1, c2⟩ := bandChunks_cover hn (Nat.zero_le b) hb
    have hp : 0 < p := by omega
    have val : ∀ c < 2, R ((G * 2 + c) * p + b) = if c = 0 then (A b G).1.re else (A b G).2.re := by
      intro c hc
      refine (h1 _ ⟨ch, hm, G, hG, b - ch.1, by omega, c, hc, by congr 1; omega⟩).trans ?_
      have e1 : ((G * 2 + c) * p + b) / p = G * 2 + c := by
        rw [Nat.add_comm, Nat.add_mul_div_right _ _ hp, Nat.div_eq_of_lt (by omega), Nat.zero_add]
      have e2 : ((G * 2 + c) * p + b) % p = b := by
        rw [Nat.add_comm, Nat.add_mul_mod_self_right, Nat.mod_eq_of_lt (by omega)]
      have e3 : (G * 2 + c) / 2 = G := by omega
      have e4 : (G * 2 + c) % 2 = c := by omega
      simp only [e1, e2, e3, e4]
    rw [← him b hb G hG]
    unfold cband
    congr 1
    exact Prod.ext (val 0 (by omega)) (val 1 (by omega))
  · apply h2
    rintro ch hm ⟨G, hG, b, hb, c, hc, rfl⟩
    have := (bandChunks_bound hm).1
    have : (G * 2 + c) * p + (ch.1 + b) < N * 2 * p := rowMajor_lt (rowMajor_lt hG hc) (by omega)
    omega

theorem copySliceR_apply {N p : ℕ} (Xin X : ℕ → ℝ) (ch : ℕ × ℕ) (hch : ch.1 + ch.2 ≤ p) :
    (∀ G < N, ∀ b < ch.2, cband p (copySliceR (N * 2) p Xin X ch.1 ch.2) (ch.1 + b) G = cband p Xin (ch.1 + b) G) ∧
    (∀ a, (∀ G < N, ∀ b < ch.2, ∀ c < 2, a ≠ (G * 2 + c) * p + (ch.1 + b)) → copySliceR (N * 2) p Xin X ch.1 ch.2 a = X a) := by
  constructor
  · intro G hG b hb
    have key : ∀ i < N * 2, copySliceR (N * 2) p Xin X ch.1 ch.2 (i * p + (ch.1 + b)) = Xin (i * p + (ch.1 + b)) := by
      intro i hi
      have e : i * p + (ch.1 + b) = i * p + b + ch.1 := by ring
      rw [e]
      exact writes_map_apply (addr := fun t : ℕ × ℕ => t.1 * p + t.2 + ch.1) (val := fun t => Xin (t.1 * p + t.2 + ch.1))
        (i := (i, b)) (mem_loop2.2 ⟨hi, hb⟩) (fun j _ e => by simp only at e ⊢; rw [e])
    exact congrArg castP (Prod.ext (key _ (by omega)) (key _ (by omega)))
  · intro a ha
    apply writes_of_not_mem
    intro w hw
    rw [List.mem_map] at hw
    obtain ⟨⟨i, b⟩, ht, rfl⟩ := hw
    rw [mem_loop2] at ht
    have h := ha (i / 2) (by have := ht.1; simp only at this; omega) b ht.2 (i % 2) (by omega)
    have e : i / 2 * 2 + i % 2 = i := by omega
    rw [e] at h
    intro h'
    apply h
    rw [← h']
    ring

section
variable {w : Fftw} {d : RData} {P : Problem}

theorem N_eq (hd : Represents d P) : d.N = P.data.N := by
  show d.nx * d.ny * d.nz = P.nx * P.ny * P.nz
  rw [hd.nx, hd.ny, hd.nz]

theorem stepR_apply (hw : IsC2R ⟨P.nx, P.ny, P.nz⟩ w) (hd : Represents d P) (hs : Symmetric P) (p : ℕ) (Xin buf X : ℕ → ℝ) (ch : ℕ × ℕ)
    (hch : ch.1 + ch.2 ≤ p) :
    (∀ G < d.N, ∀ b < ch.2, cband p (operatorStepR w d p Xin buf X ch) (ch.1 + b) G = bandMaxwell P.data (cband p Xin (ch.1 + b)) G) ∧
    (∀ a, (∀ G < d.N, ∀ b < ch.2, ∀ c < 2, a ≠ (G * 2 + c) * p + (ch.1 + b)) → operatorStepR w d p Xin buf X ch a = X a) := by
  have hN := N_eq hd
  unfold operatorStepR bandMaxwell
  rcases hd.mu with ⟨m1, m2⟩ | ⟨mu, muh, m1, m2, hm⟩
  · rw [m2, show P.data.muInv = none from m1]
    have := chainR_apply crossT2cR_cast crossC2tR_cast hw hd hd.eps hs.1 (-1 / (d.N : ℝ)) Xin buf X hch
    refine ⟨fun G hG b hb => (this.1 G hG b hb).trans ?_, this.2⟩
    rw [hN]
    rfl
  · rw [m2, show P.data.muInv = some mu from m1]
    dsimp only
    set X1 := HFromBmuR w d muh p Xin X buf ch.1 ch.2 with hX1
    set X2 := toHR crossC2tR w d p X1 (eFromDR (fftOutputSize d.nx d.ny d.nz) ch.2 d.epsInv (fromHR crossT2cR d p X1 buf ch.1 ch.2)) ch.1 ch.2
      (-1 / (d.N : ℝ)) with hX2
    have s1 := chainR_apply t2cR_cast c2tR_cast hw hd hm (hs.2 mu m1) (1 / (d.N : ℝ)) Xin buf X hch
    have s2 := chainR_apply crossT2cR_cast crossC2tR_cast hw hd hd.eps hs.1 (-1 / (d.N : ℝ)) X1 buf X1 hch
    have s3 := chainR_apply t2cR_cast c2tR_cast hw hd hm (hs.2 mu m1) (1 / (d.N : ℝ)) X2 buf X2 hch
    refine ⟨fun G hG b hb => (s3.1 G hG b hb).trans ?_, fun a ha => ((s3.2 a ha).trans (s2.2 a ha)).trans (s1.2 a ha)⟩
    have e2 : ∀ G' < P.data.N, cband p X2 (ch.1 + b) G' = bandOp P.data (bandMu P.data mu (cband p Xin (ch.1 + b))) G' := by
      intro G' hG'
      refine (s2.1 G' (by rw [hN]; exact hG') b hb).trans ?_
      have e1 : ∀ G'' < P.data.N, cband p X1 (ch.1 + b) G'' = bandMu P.data mu (cband p Xin (ch.1 + b)) G'' := by
        intro G'' hG''
        refine (s1.1 G'' (by rw [hN]; exact hG'') b hb).trans ?_
        rw [hN]
        rfl
      rw [hN]
      exact colOp_congr _ _ _ _ _ e1 G'
    rw [hN]
    exact colOp_congr _ _ _ _ _ e2 G

theorem operatorR_bands (hw : IsC2R ⟨P.nx, P.ny, P.nz⟩ w) (hd : Represents d P) (hs : Symmetric P) (hn : 0 < d.nfb) (p : ℕ)
    (bufs : ℕ → ℕ → ℝ) (Xin Xout : ℕ → ℝ) : ∃ R, maxwellOperatorR w d p bufs Xin Xout = some R ∧
      (∀ b < p, ∀ G < d.N, cband p R b G = bandMaxwell P.data (cband p Xin b) G) ∧ (∀ a, d.N * 2 * p ≤ a → R a = Xout a) := by
  unfold maxwellOperatorR
  rw [if_neg (by omega)]
  exact ⟨_, rfl, chunksR_apply hn (fun X ch => operatorStepR w d p Xin (bufs ch.1) X ch) (fun b => bandMaxwell P.data (cband p Xin b))
    (fun X ch hch => stepR_apply hw hd hs p Xin (bufs ch.1) X ch hch) Xout⟩

theorem muinvR_bands (hw : IsC2R ⟨P.nx, P.ny, P.nz⟩ w) (hd : Represents d P) (hs : Symmetric P) (hn : 0 < d.nfb) (p : ℕ)
    (bufs : ℕ → ℕ → ℝ) (Xin Xout : ℕ → ℝ) : ∃ R, muinvOperatorR w d p bufs Xin Xout = some R ∧
      (∀ b < p, ∀ G < d.N, cband p R b G = bandMuinv P.data (cband p Xin b) G) ∧ (∀ a, d.N * 2 * p ≤ a → R a = Xout a) := by
  unfold muinvOperatorR
  rw [if_neg (by omega)]
  refine ⟨_, rfl, chunksR_apply hn _ (fun b => bandMuinv P.data (cband p Xin b)) (fun X ch hch => ?_) Xout⟩
  unfold bandMuinv
  rcases hd.mu with ⟨m1, m2⟩ | ⟨mu, muh, m1, m2, hm⟩
  · rw [m2, show P.data.muInv = none from m1]
    exact copySliceR_apply Xin X ch hch
  · rw [m2, show P.data.muInv = some mu from m1]
    have := chainR_apply t2cR_cast c2tR_cast hw hd hm (hs.2 mu m1) (1 / (d.N : ℝ)) Xin (bufs ch.1) X hch
    refine ⟨fun G hG b hb => (this.1 G hG b hb).trans ?_, this.2⟩
    rw [N_eq hd]
    rfl

/-- Two arrays with equal bands are equal. -/
theorem eq_of_bands {p N : ℕ} {R : ℕ → ℝ} {R' : ℕ → ℂ} (h : ∀ b < p, ∀ G < N, band p R' b G = cband p R b G) {a : ℕ} (ha : a < N * 2 * p) :
    R' a = R a := by
  have hp : 0 < p := by
    rcases Nat.eq_zero_or_pos p with h0 | h0
    · subst h0; simp at ha
    · exact h0
  have hi : a / p < N * 2 := Nat.div_lt_of_lt_mul (by rw [Nat.mul_comm]; exact ha)
  have h1 := h (a % p) (Nat.mod_lt _ hp) (a / p / 2) (by omega)
  have e : a / p * p + a % p = a := Nat.div_add_mod' a p
  obtain ⟨g0, g1⟩ := Prod.mk.injEq .. ▸ h1
  rcases Nat.mod_two_eq_zero_or_one (a / p) with hm | hm
  · unfold bandR at g0
    dsimp only at g0
    rw [show a / p / 2 * 2 + 0 = a / p by omega, e] at g0
    exact g0
  · unfold bandR at g1
    dsimp only at g1
    rw [show a / p / 2 * 2 + 1 = a / p by omega, e] at g1
    exact g1

end

/-! ### Choosing independent real vectors -/

theorem real_selection {m n : ℕ} (X : Fin n → Fin m → ℂ) (hX : LinearIndependent ℂ X) :
    ∃ Y : Fin n → Fin m → ℝ, LinearIndependent ℝ Y ∧ ∀ i, ∃ j, Y i = (fun a => (X j a).re) ∨ Y i = fun a => (X j a).im := by
  classical
  set t : Set (Fin m → ℝ) := Set.range (fun j a => (X j a).re) ∪ Set.range (fun j a => (X j a).im) with ht
  obtain ⟨b, hbt, hsp, hli⟩ := exists_linearIndependent ℝ t
  have hbf : b.Finite := (Set.Finite.union (Set.finite_range _) (Set.finite_range _)).subset hbt
  haveI := hbf.fintype
  let cast : (Fin m → ℝ) → (Fin m → ℂ) := fun v a => (v a : ℂ)
  have hcs : ∀ v ∈ Submodule.span ℝ b, cast v ∈ Submodule.span ℂ (cast '' b) := by
    intro v hv
    induction hv using Submodule.span_induction with
    | mem x hx => exact Submodule.subset_span ⟨x, hx, rfl⟩
    | zero =>
      have : cast 0 = 0 := by funext a; simp [cast]
      rw [this]; exact Submodule.zero_mem _
    | add x y _ _ hx hy =>
      have : cast (x + y) = cast x + cast y := by funext a; simp [cast]
      rw [this]; exact Submodule.add_mem _ hx hy
    | smul c x _ hx =>
      have : cast (c • x) = (c : ℂ) • cast x := by funext a; simp [cast]
      rw [this]; exact Submodule.smul_mem _ _ hx
  have hrange : Set.range X ≤ Submodule.span ℂ (cast '' b) := by
    rintro _ ⟨j, rfl⟩
    have h1 : cast (fun a => (X j a).re) ∈ Submodule.span ℂ (cast '' b) := hcs _ (by rw [hsp]; exact Submodule.subset_span (Or.inl ⟨j, rfl⟩))
    have h2 : cast (fun a => (X j a).im) ∈ Submodule.span ℂ (cast '' b) := hcs _ (by rw [hsp]; exact Submodule.subset_span (Or.inr ⟨j, rfl⟩))
    have e : X j = cast (fun a => (X j a).re) + Complex.I • cast (fun a => (X j a).im) := by
      funext a
      apply Complex.ext <;> simp [cast]
    rw [e]
    exact Submodule.add_mem _ h1 (Submodule.smul_mem _ _ h2)
  have hcard := linearIndependent_le_span' X hX (cast '' b) hrange
  have hcard' : n ≤ Fintype.card b := by
    rw [Cardinal.mk_fin] at hcard
    have h1 : n ≤ Fintype.card (cast '' b) := by exact_mod_cast hcard
    refine h1.trans ?_
    have hinj : Function.Injective cast := fun u v h => by
      funext a
      exact Complex.ofReal_injective (congrFun h a)
    rw [Set.card_image_of_injective b hinj]
  obtain ⟨e⟩ : Nonempty (Fin n ↪ b) := Function.Embedding.nonempty_of_card_le (by rw [Fintype.card_fin]; exact hcard')
  refine ⟨fun i => (e i : Fin m → ℝ), hli.comp e e.injective, fun i => ?_⟩
  rcases hbt (e i).2 with ⟨j, hj⟩ | ⟨j, hj⟩
  · exact ⟨j, Or.inl hj.symm⟩
  · exact ⟨j, Or.inr hj.symm⟩

end Mpb.RealBuild

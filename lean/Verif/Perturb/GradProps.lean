import Verif.Perturb.Wave

/-! # C69: the group velocity is the gradient of the band, counted from below, wherever it is not degenerate -/

namespace Mpb.Perturb
open Mpb.Maxwell Mpb.Maxwell.Spec Mpb.Invariance Mpb.Invariance.Spec Mpb.Velocity Mpb.Velocity.Spec Mpb.Invariance.MinMax Spec
open Matrix
open scoped ComplexOrder

theorem velocityForm_linear (d : OpData) (K : ℕ → V3 ℝ) (w : V3 ℝ) (h : ℕ → ℂ × ℂ) :
    velocityForm d K w h = velocityForm d K ⟨1, 0, 0⟩ h * w.x + velocityForm d K ⟨0, 1, 0⟩ h * w.y + velocityForm d K ⟨0, 0, 1⟩ h * w.z := by
  have e : ∀ r, ucrossField d w h r = V3.smul (w.x : ℂ) (ucrossField d ⟨1, 0, 0⟩ h r) + V3.smul 1 (V3.smul (w.y : ℂ) (ucrossField d ⟨0, 1, 0⟩ h r) +
      V3.smul (w.z : ℂ) (ucrossField d ⟨0, 0, 1⟩ h r)) := by
    intro r
    unfold ucrossField transform
    ext <;> simp only [V3.add_x, V3.add_y, V3.add_z, V3.smul_x, V3.smul_y, V3.smul_z, Finset.mul_sum, ← Finset.sum_add_distrib] <;>
      refine Finset.sum_congr rfl fun j _ => ?_ <;> simp [V3.cross, toC] <;> ring
  unfold velocityForm gridForm
  simp only [e, mulVec_lin]
  have e2 : ∀ (a b c d : V3 ℂ) (x y z : ℝ), herm a (V3.smul (x : ℂ) b + V3.smul 1 (V3.smul (y : ℂ) c + V3.smul (z : ℂ) d)) =
      (x : ℂ) * herm a b + (y : ℂ) * herm a c + (z : ℂ) * herm a d := by
    intro a b c d x y z
    simp only [herm, V3.add_x, V3.add_y, V3.add_z, V3.smul_x, V3.smul_y, V3.smul_z]
    ring
  simp only [e2, Finset.sum_add_distrib, ← Finset.mul_sum]
  have : (1 / (d.N : ℂ)) = ((1 / (d.N : ℝ) : ℝ) : ℂ) := by push_cast; rfl
  rw [this, Complex.re_ofReal_mul, Complex.re_ofReal_mul, Complex.re_ofReal_mul, Complex.re_ofReal_mul, Complex.add_re, Complex.add_re, Complex.re_ofReal_mul,
    Complex.re_ofReal_mul, Complex.re_ofReal_mul]
  ring

/-- The bands exist: for every number up to twice the number of grid points there is a squared frequency of the band with that number. -/
theorem nth_exists {m n : ℕ} {A B : Matrix (Fin m) (Fin m) ℂ} (hA : A.IsHermitian) (hB : B.PosDef) (hn : 0 < n) (hm : n ≤ m) : ∃ lam, IsNth A B n lam := by
  classical
  obtain ⟨V, τ, hVB, hVA⟩ := pencil_diag hA hB
  have inv1 : V * (Vᴴ * B) = 1 := mul_eq_one_comm.mp hVB
  have co : ∀ x, V.mulVec ((Vᴴ * B).mulVec x) = x := fun x => by rw [mulVec_mulVec, inv1, one_mulVec]
  have hform : ∀ x nu, form A x - nu * form B x = ∑ p, (τ p - nu) * Complex.normSq ((Vᴴ * B).mulVec x p) := by
    intro x nu
    have h1 := form_diag hVA ((Vᴴ * B).mulVec x)
    have h2 := form_diag (hVB.trans one_diag) ((Vᴴ * B).mulVec x)
    rw [co] at h1 h2
    rw [h1, h2, Finset.mul_sum, ← Finset.sum_sub_distrib]
    exact Finset.sum_congr rfl fun p _ => by ring
  set cnt : ℝ → ℕ := fun lam => (Finset.univ.filter fun p => τ p ≤ lam).card with hcnt
  have hyes : ∀ lam, n ≤ cnt lam → ∃ f : Fin n → Fin m → ℂ, LinearIndependent ℂ f ∧ ∀ i, ∃ mu : ℝ, mu ≤ lam ∧ A.mulVec (f i) = (mu : ℂ) • B.mulVec (f i) := by
    intro lam hl
    refine count_conditions hA hB (coords (Vᴴ * B) (Finset.univ.filter fun p => ¬ τ p ≤ lam)) ?_ fun x hx => ?_
    · have := Finset.card_filter_add_card_filter_not (s := (Finset.univ : Finset (Fin m))) (fun p => τ p ≤ lam)
      rw [Finset.card_univ, Fintype.card_fin] at this
      simp only [Module.finrank_fintype_fun_eq_card, Fintype.card_coe]
      have : n ≤ (Finset.univ.filter fun p => τ p ≤ lam).card := hl
      omega
    · have := hform x lam
      have h4 : ∑ p, (τ p - lam) * Complex.normSq ((Vᴴ * B).mulVec x p) ≤ 0 := by
        refine Finset.sum_nonpos fun p _ => ?_
        by_cases hp : τ p ≤ lam
        · exact mul_nonpos_of_nonpos_of_nonneg (by linarith) (Complex.normSq_nonneg _)
        · rw [coords_zero hx (Finset.mem_filter.2 ⟨Finset.mem_univ _, hp⟩)]; simp
      linarith
  have hno : ∀ lam, cnt lam < n → ¬ ∃ f : Fin n → Fin m → ℂ, LinearIndependent ℂ f ∧ ∀ i, ∃ mu : ℝ, mu ≤ lam ∧ A.mulVec (f i) = (mu : ℂ) • B.mulVec (f i) := by
    intro lam hl
    refine no_count hA hB (coords (Vᴴ * B) (Finset.univ.filter fun p => τ p ≤ lam)) ?_ (fun x hx0 hx => ?_)
    · simpa only [Module.finrank_fintype_fun_eq_card, Fintype.card_coe] using hl
    · have := hform x lam
      have hne : (Vᴴ * B).mulVec x ≠ 0 := by
        intro h0
        have := co x
        rw [h0, mulVec_zero] at this
        exact hx0 this.symm
      obtain ⟨q, hq⟩ := Function.ne_iff.1 hne
      have hnn : ∀ p ∈ Finset.univ, 0 ≤ (τ p - lam) * Complex.normSq ((Vᴴ * B).mulVec x p) := by
        intro p _
        by_cases hp : τ p ≤ lam
        · rw [coords_zero hx (Finset.mem_filter.2 ⟨Finset.mem_univ _, hp⟩)]; simp
        · exact mul_nonneg (by linarith [not_le.1 hp]) (Complex.normSq_nonneg _)
      have h4 : 0 < ∑ p, (τ p - lam) * Complex.normSq ((Vᴴ * B).mulVec x p) := by
        refine Finset.sum_pos' hnn ⟨q, Finset.mem_univ _, mul_pos ?_ (Complex.normSq_pos.2 hq)⟩
        by_contra h
        exact hq (coords_zero hx (Finset.mem_filter.2 ⟨Finset.mem_univ _, by linarith⟩))
      linarith
  have hne : (Finset.univ.filter fun p => n ≤ cnt (τ p)).Nonempty := by
    haveI : Nonempty (Fin m) := ⟨⟨0, by omega⟩⟩
    obtain ⟨q, -, hq⟩ := Finset.exists_max_image (Finset.univ : Finset (Fin m)) τ Finset.univ_nonempty
    refine ⟨q, Finset.mem_filter.2 ⟨Finset.mem_univ _, ?_⟩⟩
    have : (Finset.univ.filter fun p => τ p ≤ τ q) = Finset.univ := Finset.filter_true_of_mem fun p hp => hq p hp
    show n ≤ (Finset.univ.filter fun p => τ p ≤ τ q).card
    rw [this, Finset.card_univ, Fintype.card_fin]
    exact hm
  obtain ⟨p, hp, hmin⟩ := Finset.exists_min_image _ τ hne
  refine ⟨τ p, hyes _ (Finset.mem_filter.1 hp).2, fun nu hnu => hno nu ?_⟩
  by_contra hc
  push Not at hc
  have hne2 : (Finset.univ.filter fun q => τ q ≤ nu).Nonempty := Finset.card_pos.1 (lt_of_lt_of_le hn hc)
  obtain ⟨q, hq, hmax⟩ := Finset.exists_max_image _ τ hne2
  have h1 : n ≤ cnt (τ q) := by
    refine hc.trans (Finset.card_le_card fun r hr => Finset.mem_filter.2 ⟨Finset.mem_univ _, hmax r hr⟩)
  have h2 := hmin q (Finset.mem_filter.2 ⟨Finset.mem_univ _, h1⟩)
  have h3 := (Finset.mem_filter.1 hq).2
  linarith

/-- Every band exists. -/
theorem band_exists (P : Problem) (hn : 0 < P.nfb) (hμ : ∀ r < P.nx * P.ny * P.nz, Tensor.Spec.PosDef (invMu P r)) {n : ℕ} (h1 : 0 < n)
    (h2 : n ≤ P.nx * P.ny * P.nz * 2) : ∃ lam, BandIs P.data n lam := by
  have pM := muOp_posDef P hμ
  have hA : ((muOp P).mat * (curlOp P).mat * (muOp P).mat).IsHermitian := by
    have h1 : ((muOp P).mat)ᴴ = (muOp P).mat := pM.isHermitian
    unfold Matrix.IsHermitian
    rw [conjTranspose_mul, conjTranspose_mul, h1, curlOp_hermitian P, Matrix.mul_assoc]
  obtain ⟨lam, hl⟩ := nth_exists hA pM h1 (m := P.data.N * 2) h2
  exact ⟨lam, (modes_pencil2 P hn _ _).2 hl.1, fun nu hnu hc => hl.2 nu hnu ((modes_pencil2 P hn _ _).1 hc)⟩

/-- C69 (partial: no permeability).  Let `ω k` be the frequency of band `n`, counted from below, at the Cartesian wavevector `k`, for every `k`.  Wherever
the mode is not degenerate and `ω` is positive, `ω` is differentiable in every direction, and the vector `compute-1-group-velocity` returns is its
gradient.  Nothing is assumed about the way the mode changes with `k`.  Missing: permeabilities (see `C69_mu_refuted`). -/
theorem C69_gradient_partial (P : Problem) (hd : P.Rm.det ≠ 0) (hn : 0 < P.nfb) (hmu : P.muInv = none)
    (ω : V3 ℝ → ℝ) (n : ℕ) (h0 : ∀ k, 0 ≤ ω k) (hb : ∀ k, BandIs (atWave P k).data n (ω k ^ 2)) (k : V3 ℝ) (hs : Simple (atWave P k).data (ω k ^ 2))
    (hpos : 0 < ω k) (v : VData) (hv : v.d = (atWave P k).data) (b : ℕ) (H : ℕ → ℂ) (hx : Field.Spec.EigenBand (atWave P k).data (band v.p H b) (ω k ^ 2))
    (hf : FreqOf v.neg (v.freqs b) (ω k ^ 2)) (bufs : V3 ℝ → ℕ → ℕ → ℂ) (W0 W1 : V3 ℝ → ℕ → ℂ) :
    ∃ comp : V3 ℝ → ℝ, (∀ dir, component1 v (direction (latticeGm P.Rm) dir) (bufs dir) (W0 dir) (W1 dir) H b = some (comp dir)) ∧
      IsGradient ω k (groupVelocity1 P.Rm comp) := by
  set Q := atWave P k with hQ
  obtain ⟨K, hK, -⟩ := data_isBasis Q
  set x := band v.p H b with hxdef
  set f : V3 ℝ → ℝ := fun u => velocityForm Q.data K u x with hfdef
  have hval : ∀ u, scaleByFreq v.neg (v.freqs b) (bandForm v.d u (bandMuinv v.d x)) = f u / ω k := by
    intro u
    have e1 : bandMuinv v.d x = x := by
      rw [hv]
      unfold bandMuinv
      rw [show Q.data.muInv = none from hmu]
    rw [e1, hv, bandForm_eq (data_adjoint Q) hK]
    show scaleByFreq v.neg (v.freqs b) (f u) = _
    unfold scaleByFreq FreqOf at *
    cases hneg : v.neg with
    | true =>
      rw [hneg] at hf
      simp only [if_true] at hf ⊢
      rw [hf, if_neg (by positivity), abs_of_pos (by positivity), Real.sqrt_sq hpos.le]
    | false =>
      rw [hneg] at hf
      simp only [Bool.false_eq_true, if_false] at hf ⊢
      rw [hf, Real.sqrt_sq hpos.le, if_neg hpos.ne']
  refine ⟨fun dir => f (direction (latticeGm P.Rm) dir) / ω k, fun dir => ?_, fun w => ?_⟩
  · rw [component1_eq v (by rw [hv]; exact hn), hval]
  · have hax := C46_axes false false false ⟨1, 1, 1⟩ P.Rm (by
      have : latticeRm false false false ⟨1, 1, 1⟩ P.Rm = P.Rm := by ext <;> simp [latticeRm]
      rw [this]; exact hd) (fun u => f u / ω k)
    have hR : latticeRm false false false ⟨1, 1, 1⟩ P.Rm = P.Rm := by ext <;> simp [latticeRm]
    simp only [hR] at hax
    rw [hax]
    have hal : ∀ t, alongK Q w t = atWave P (k + V3.smul t w) := by
      intro t
      simp only [alongK, atWave, hQ]
      congr 1
      ext <;> simp [V3.dot] <;> ring
    obtain ⟨K', hK'⟩ := waves Q hd w
    have hK0 : ∀ G < Q.data.N, IsBasis (K' G) (Q.data.kpg G) := by
      intro G hG
      have h1 := hK' 0 G hG
      have e : K' G + V3.smul (0 : ℝ) w = K' G := by ext <;> simp
      have e2 : alongK Q w 0 = Q := by simp [alongK]
      rwa [e, e2] at h1
    have hk0 : k + V3.smul (0 : ℝ) w = k := by ext <;> simp
    have key := wave_derivative Q hn hmu w hK' (lam := fun t => ω (k + V3.smul t w) ^ 2) (n := n) (fun t => by rw [hal]; exact hb _)
      (by simp only [hk0]; exact hs) (by simp only [hk0]; positivity) (fun t => sq_nonneg _) (x := x) (by simp only [hk0]; exact hx)
    have key2 := key.sqrt (by simp only [hk0]; positivity)
    simp only [Real.sqrt_sq (h0 _), hk0] at key2
    have e3 : velocityForm Q.data K' w x = f w := by
      rw [← bandForm_eq (data_adjoint Q) hK0, bandForm_eq (data_adjoint Q) hK]
    rw [e3] at key2
    convert key2 using 1
    rw [hfdef]
    simp only
    rw [velocityForm_linear Q.data K w]
    simp only [V3.dot]
    field_simp

theorem band_unique {d : OpData} {n : ℕ} {a b : ℝ} (ha : BandIs d n a) (hb : BandIs d n b) : a = b := by
  rcases lt_trichotomy a b with h | h | h
  · exact absurd ha.1 (hb.2 a h)
  · exact h
  · exact absurd hb.1 (ha.2 b h)

theorem exP_at : atWave exP ⟨1, 0, 0⟩ = exP := by
  unfold atWave exP
  simp [V3.dot]

/-- Non-vacuity of `C69_gradient_partial`: the anisotropic medium of one grid point has a first band at every wavevector, and at `k = (1, 0, 0)` it is not
degenerate and has the frequency 1/2. -/
example : ∃ ω : V3 ℝ → ℝ, (∀ k, 0 ≤ ω k) ∧ (∀ k, BandIs (atWave exP k).data 1 (ω k ^ 2)) ∧ exP.Rm.det ≠ 0 ∧
    Simple (atWave exP ⟨1, 0, 0⟩).data (ω ⟨1, 0, 0⟩ ^ 2) ∧ 0 < ω ⟨1, 0, 0⟩ ∧
    Field.Spec.EigenBand (atWave exP ⟨1, 0, 0⟩).data (band 1 (fun a => if a = 0 then 1 else 0) 0) (ω ⟨1, 0, 0⟩ ^ 2) ∧
    ∃ g, IsGradient ω ⟨1, 0, 0⟩ g := by
  have hp : ∀ k, ∀ r < 1, Tensor.Spec.PosDef (invMu (atWave exP k) r) := by
    intro k r _
    refine (posDef_iff _).2 ?_
    have e : Tensor.Spec.toMatrix (invMu (atWave exP k) r) = 1 := by
      ext i j
      fin_cases i <;> fin_cases j <;> simp [Tensor.Spec.toMatrix, invMu, atWave, exP]
    rw [e]
    exact Matrix.PosDef.one
  have hex : ∀ k, ∃ lam, BandIs (atWave exP k).data 1 lam := fun k => band_exists (atWave exP k) Nat.one_pos (hp k) one_pos (by show 1 ≤ 1 * 1 * 1 * 2; norm_num)
  choose lam hlam using hex
  have hε : ∀ k, ∀ r < 1, PSD ((atWave exP k).epsInv r) := by
    intro k r _ v
    simp [atWave, exP, HMat.mulVec, herm]
    nlinarith [sq_nonneg v.x.re, sq_nonneg v.x.im, sq_nonneg v.y.re, sq_nonneg v.y.im, sq_nonneg v.z.re, sq_nonneg v.z.im]
  have hl : ∀ k, 0 ≤ lam k := fun k => band_nonneg (atWave exP k) Nat.one_pos rfl (hε k) (hlam k)
  have hsq : ∀ k, Real.sqrt (lam k) ^ 2 = lam k := fun k => Real.sq_sqrt (hl k)
  have h1 : lam ⟨1, 0, 0⟩ = 1 / 4 := by
    have h := hlam ⟨1, 0, 0⟩
    rw [exP_at] at h
    exact band_unique h (exP_band 1 (1 / 4) (1 / 2) (by norm_num) exP rfl)
  have hb : ∀ k, BandIs (atWave exP k).data 1 (Real.sqrt (lam k) ^ 2) := fun k => by rw [hsq]; exact hlam k
  have hd : exP.Rm.det ≠ 0 := by simp [exP, M3.det]
  have hs : Simple (atWave exP ⟨1, 0, 0⟩).data (Real.sqrt (lam ⟨1, 0, 0⟩) ^ 2) := by rw [hsq, h1, exP_at]; exact exP_simple
  have hpos : 0 < Real.sqrt (lam ⟨1, 0, 0⟩) := by rw [h1]; positivity
  have he : Field.Spec.EigenBand (atWave exP ⟨1, 0, 0⟩).data (band 1 (fun a => if a = 0 then 1 else 0) 0) (Real.sqrt (lam ⟨1, 0, 0⟩) ^ 2) := by
    rw [hsq, h1, exP_at]; exact exP_eigen
  refine ⟨fun k => Real.sqrt (lam k), fun k => Real.sqrt_nonneg _, hb, hd, hs, hpos, he, ?_⟩
  obtain ⟨comp, -, h⟩ := C69_gradient_partial exP hd Nat.one_pos rfl (fun k => Real.sqrt (lam k)) 1 (fun k => Real.sqrt_nonneg _) hb ⟨1, 0, 0⟩ hs hpos
    ⟨(atWave exP ⟨1, 0, 0⟩).data, 1, 1, true, true, fun _ => Real.sqrt (lam ⟨1, 0, 0⟩) ^ 2⟩ rfl 0 (fun a => if a = 0 then 1 else 0) he rfl (fun _ _ _ => 0)
    (fun _ _ => 0) (fun _ _ => 0)
  exact ⟨_, h⟩

end Mpb.Perturb

import Verif.Perturb.Lemmas
import Verif.Epsilon.Props
import Mathlib.Analysis.SpecialFunctions.Log.Deriv
import Mathlib.Analysis.SpecialFunctions.Sqrt

/-! # C112: energy fractions are the logarithmic derivatives of the frequency -/

namespace Mpb.Perturb
open Mpb.Maxwell Mpb.Maxwell.Spec Mpb.Invariance Mpb.Invariance.Spec Mpb.Invariance.MinMax Mpb.Field Mpb.Field.Spec Mpb.Flux Mpb.Flux.Spec Spec
open Matrix Filter Topology
open scoped ComplexOrder

/-! ### In terms of amplitudes -/

theorem pairs_apply_symm (x : ℕ → ℂ × ℂ) : pairs (pairs.symm x) = x := LinearEquiv.apply_symm_apply pairs x

theorem eigen_isMode {P : Problem} (hn : 0 < P.nfb) {x : ℕ → ℂ × ℂ} {lam : ℝ} (hx : EigenBand P.data x lam) : IsMode P.data lam (pairs.symm x) := by
  rw [isMode_iff _ hn, band_pairs, pairs_apply_symm]
  refine ⟨?_, hx.eig⟩
  by_contra hc
  push Not at hc
  have h := hx.norm
  unfold Maxwell.Spec.inner at h
  rw [Finset.sum_eq_zero fun G hG => by rw [hc G (Finset.mem_range.1 hG)]; simp [hermT]] at h
  exact zero_ne_one h

theorem tensor_congr {N : ℕ} {M M' : ℕ → HMat} (h : ∀ r < N, M r = M' r) (a b : ℕ → V3 ℂ) : gridForm N M a b = gridForm N M' a b := by
  unfold gridForm
  congr 1
  exact Finset.sum_congr rfl fun r hr => by rw [h r (Finset.mem_range.1 hr)]

theorem derivative_amplitudes (P : Problem) (hn : 0 < P.nfb) (e : ℝ → ℕ → HMat) (u : ℝ → Option (ℕ → HMat)) (he0 : ∀ r < P.data.N, e 0 r = P.epsInv r)
    (hu0 : ∀ r < P.data.N, invMu (withTensors P (e 0) (u 0)) r = invMu P r) (hpos : ∀ t, ∀ r < P.data.N, Tensor.Spec.PosDef (invMu (withTensors P (e t) (u t)) r)) (dE dM : ℕ → HMat)
    (hE : ∀ r < P.data.N, TensorDeriv (fun t => e t r) (dE r)) (hM : ∀ r < P.data.N, TensorDeriv (fun t => invMu (withTensors P (e t) (u t)) r) (dM r))
    {lam : ℝ → ℝ} {n : ℕ} (hb : ∀ t, BandIs (withTensors P (e t) (u t)).data n (lam t)) {K : ℕ → V3 ℝ} (hK : ∀ G < P.data.N, IsBasis (K G) (P.data.kpg G))
    (hs : Simple P.data (lam 0)) {x : ℕ → ℂ × ℂ} (hx : EigenBand P.data x (lam 0)) :
    HasDerivAt lam ((gridForm P.data.N dE (curlField P.data K (bandMuinv P.data x)) (curlField P.data K (bandMuinv P.data x))).re +
      lam 0 * (gridForm P.data.N dM (plainField P.data x) (plainField P.data x)).re) 0 := by
  set Q := fun t => withTensors P (e t) (u t) with hQ
  set D := withTensors P dE (some dM) with hD
  set M : ℝ → Matrix (Fin (P.data.N * 2)) (Fin (P.data.N * 2)) ℂ := fun t => (muOp (Q t)).mat with hMdef
  set C : ℝ → Matrix (Fin (P.data.N * 2)) (Fin (P.data.N * 2)) ℂ := fun t => (curlOp (Q t)).mat with hCdef
  set M' : Matrix (Fin (P.data.N * 2)) (Fin (P.data.N * 2)) ℂ := (muOp D).mat with hM'
  set C' : Matrix (Fin (P.data.N * 2)) (Fin (P.data.N * 2)) ℂ := (curlOp D).mat with hC'
  have dMm : ∀ p q, HasDerivAt (fun t => M t p q) (M' p q) 0 := by
    intro p q
    have e1 : ∀ t, M t p q = gridForm P.data.N (invMu (Q t)) (plainField P.data (pairs (padded (Pi.single p 1)))) (plainField P.data (pairs (padded (Pi.single q 1)))) :=
      fun t => entry_mu (Q t) p q
    have e2 : M' p q = gridForm P.data.N dM (plainField P.data (pairs (padded (Pi.single p 1)))) (plainField P.data (pairs (padded (Pi.single q 1)))) :=
      entry_mu D p q
    simp only [e1]
    rw [e2]
    exact gridForm_deriv hM _ _
  have dCm : ∀ p q, HasDerivAt (fun t => C t p q) (C' p q) 0 := by
    intro p q
    have e1 : ∀ t, C t p q = gridForm P.data.N (e t) (curlField P.data K (pairs (padded (Pi.single p 1)))) (curlField P.data K (pairs (padded (Pi.single q 1)))) :=
      fun t => entry_curl (Q t) (K := K) hK p q
    have e2 : C' p q = gridForm P.data.N dE (curlField P.data K (pairs (padded (Pi.single p 1)))) (curlField P.data K (pairs (padded (Pi.single q 1)))) :=
      entry_curl D (K := K) hK p q
    simp only [e1]
    rw [e2]
    exact gridForm_deriv hE _ _
  have pM : ∀ t, (M t).PosDef := fun t => muOp_posDef (Q t) (hpos t)
  have hCh : ∀ t, (C t).IsHermitian := fun t => curlOp_hermitian (Q t)
  have hA : ∀ t, (M t * C t * M t).IsHermitian := by
    intro t
    have h1 : (M t)ᴴ = M t := (pM t).isHermitian
    unfold Matrix.IsHermitian
    rw [conjTranspose_mul, conjTranspose_mul, h1, hCh t, Matrix.mul_assoc]
  have hnth : ∀ t, IsNth (M t * C t * M t) (M t) n (lam t) := fun t => isNth_of_band (Q t) hn (hb t)
  have dA := mul_deriv (mul_deriv dMm dCm) dMm
  set X := pairs.symm x with hX
  set x0 : Fin (P.data.N * 2) → ℂ := firstOf (P.data.N * 2) X with hx0
  have hM0 : M 0 = (muOp P).mat := by
    ext p q
    have e1 : M 0 p q = gridForm P.data.N (invMu (Q 0)) (plainField P.data (pairs (padded (Pi.single p 1)))) (plainField P.data (pairs (padded (Pi.single q 1)))) :=
      entry_mu (Q 0) p q
    rw [e1, entry_mu P]
    exact tensor_congr hu0 _ _
  have hC0 : C 0 = (curlOp P).mat := by
    ext p q
    have e1 : C 0 p q = gridForm P.data.N (e 0) (curlField P.data K (pairs (padded (Pi.single p 1)))) (curlField P.data K (pairs (padded (Pi.single q 1)))) :=
      entry_curl (Q 0) (K := K) hK p q
    rw [e1, entry_curl P hK]
    exact tensor_congr he0 _ _
  have hmode := eigen_isMode hn hx
  have hmat := (isMode_matrix P hn (lam 0) X).1 hmode
  have hev : (M 0 * C 0 * M 0).mulVec x0 = (lam 0 : ℂ) • (M 0).mulVec x0 := by
    rw [hM0, hC0, ← mulVec_mulVec, ← mulVec_mulVec]
    exact hmat.2
  have hnorm : form (M 0) x0 = 1 := by
    rw [hM0]
    unfold form
    rw [hx0, PairOp.dot, hX, pairs_apply_symm]
    show (inner P.data.N x (bandMuinv P.data x)).re = 1
    rw [hx.norm]; rfl
  have hsim : ∀ y, (M 0 * C 0 * M 0).mulVec y = (lam 0 : ℂ) • (M 0).mulVec y → ∃ c : ℂ, y = c • x0 := by
    intro y hy
    by_cases hy0 : y = 0
    · exact ⟨0, by rw [hy0, zero_smul]⟩
    · obtain ⟨c, hc⟩ := hs X (padded y) hmode ((isMode_matrix P hn (lam 0) _).2 (by
        rw [firstOf_padded]
        rw [hM0, hC0, ← mulVec_mulVec, ← mulVec_mulVec] at hy
        exact ⟨hy0, hy⟩))
      refine ⟨c, ?_⟩
      rw [← firstOf_padded y]
      funext i
      exact hc i i.2
  have key := hasDerivAt_nth hA pM dA dMm hnth hev hnorm hsim
  rw [form_derivative (pM 0) (hCh 0) hev] at key
  have fM : form M' x0 = (gridForm P.data.N dM (plainField P.data x) (plainField P.data x)).re := by
    have h1 : form M' x0 = (gridForm P.data.N dM (plainField P.data (pairs (padded x0))) (plainField P.data (pairs (padded x0)))).re := form_mu D x0
    rw [h1]
    have h2 : ∀ r < P.data.N, plainField P.data (pairs (padded x0)) r = plainField P.data x r := by
      intro r _
      unfold plainField
      rw [Invariance.transform_congr fun G hG => by rw [pairs_congr (fun a ha => padded_firstOf X ha) hG, hX, pairs_apply_symm]]
    rw [gridForm_congr h2 h2]
  have fC : form C' ((M 0).mulVec x0) =
      (gridForm P.data.N dE (curlField P.data K (bandMuinv P.data x)) (curlField P.data K (bandMuinv P.data x))).re := by
    have h1 : form C' ((M 0).mulVec x0) = (gridForm P.data.N dE (curlField P.data K (pairs (padded ((M 0).mulVec x0))))
      (curlField P.data K (pairs (padded ((M 0).mulVec x0))))).re := form_curl D (K := K) hK _
    rw [h1]
    have h2 : ∀ r < P.data.N, curlField P.data K (pairs (padded ((M 0).mulVec x0))) r = curlField P.data K (bandMuinv P.data x) r := by
      intro r _
      unfold curlField
      rw [Invariance.transform_congr fun G hG => by
        rw [hM0, hx0, PairOp.mulVec, pairs_congr (fun a ha => padded_firstOf _ ha) hG, pairs_apply_symm, hX, pairs_apply_symm]]
      rfl
    rw [gridForm_congr h2 h2]
  rw [fM, fC] at key
  exact key

/-! ### In terms of the loaded fields -/

theorem integral_scaled (N : ℕ) {Vol s : ℝ} (hV : 0 < Vol) (M : ℕ → HMat) (F c : ℕ → V3 ℂ) (h : ∀ r < N, F r = V3.smul ((s / Real.sqrt Vol : ℝ) : ℂ) (c r)) :
    integral N Vol (fun r => (herm (F r) ((M r).mulVec (F r))).re) = s * s * (gridForm N M c c).re := by
  unfold integral gridForm
  rw [re_inv_mul, Complex.re_sum]
  have e : ∀ r ∈ Finset.range N, (herm (F r) ((M r).mulVec (F r))).re = s / Real.sqrt Vol * (s / Real.sqrt Vol) * (herm (c r) ((M r).mulVec (c r))).re := by
    intro r hr
    rw [h r (Finset.mem_range.1 hr), Field.mulVec_smul, herm_smul, Complex.re_ofReal_mul]
  rw [Finset.sum_congr rfl e, ← Finset.mul_sum, ← scale_sq hV s]
  ring

/-- C112 (any change of the materials).  Let the stored tensors depend on a parameter, differentiably at 0, the permeability staying positive definite,
and let `lam` be the squared frequency of band `n`.  If the mode is not degenerate at 0, `lam` is differentiable there, and its derivative is `lam` times
the integral of `D* (ε⁻¹)' D + B* (μ⁻¹)' B` over the fields that `get-dfield` and `get-bfield` load.  No assumption is made on how the mode changes. -/
theorem C112_derivative (P : Problem) (hn : 0 < P.nfb) (e : ℝ → ℕ → HMat) (u : ℝ → Option (ℕ → HMat))
    (he0 : ∀ r < P.nx * P.ny * P.nz, e 0 r = P.epsInv r) (hu0 : ∀ r < P.nx * P.ny * P.nz, invMu (withTensors P (e 0) (u 0)) r = invMu P r)
    (hpos : ∀ t, ∀ r < P.nx * P.ny * P.nz, Tensor.Spec.PosDef (invMu (withTensors P (e t) (u t)) r)) (dE dM : ℕ → HMat)
    (hE : ∀ r < P.nx * P.ny * P.nz, TensorDeriv (fun t => e t r) (dE r))
    (hM : ∀ r < P.nx * P.ny * P.nz, TensorDeriv (fun t => invMu (withTensors P (e t) (u t)) r) (dM r))
    (lam : ℝ → ℝ) (n : ℕ) (hb : ∀ t, BandIs (withTensors P (e t) (u t)).data n (lam t)) (hs : Simple P.data (lam 0)) (hl : 0 < lam 0)
    (p : ℕ) (H W0 buf buf2 buf3 : ℕ → ℂ) (freqs : ℕ → ℝ) (b : ℕ) (Vol : ℝ) (hV : 0 < Vol) (hx : EigenBand P.data (band p H b) (lam 0))
    (hf : freqs b = Real.sqrt (lam 0)) :
    HasDerivAt lam (lam 0 * integral (P.nx * P.ny * P.nz) Vol (fun r =>
      (herm (at3 (getD P.data p H W0 buf buf2 freqs Vol b) r) ((dE r).mulVec (at3 (getD P.data p H W0 buf buf2 freqs Vol b) r))).re +
      (herm (at3 (getB P.data p H buf3 Vol b) r) ((dM r).mulVec (at3 (getB P.data p H buf3 Vol b) r))).re)) 0 := by
  obtain ⟨K, hK, -⟩ := data_isBasis P
  have key := derivative_amplitudes P hn e u he0 hu0 hpos dE dM hE hM hb hK hs hx
  have hf0 : freqs b ≠ 0 := by rw [hf]; exact (Real.sqrt_pos.2 hl).ne'
  have i1 := integral_scaled P.data.N hV (s := -1 / freqs b) dE (fun r => at3 (getD P.data p H W0 buf buf2 freqs Vol b) r)
    (curlField P.data K (bandMuinv P.data (band p H b))) (fun r hr => by
      rw [← cvec_at3, getD_vec P.data K hK p H W0 buf buf2 freqs Vol b hr, if_pos hf0])
  have i2 := integral_scaled P.data.N hV (s := 1) dM (fun r => at3 (getB P.data p H buf3 Vol b) r) (plainField P.data (band p H b))
    (fun r hr => by rw [← cvec_at3, getB_vec P.data p H buf3 Vol b hr])
  have hsq : -1 / freqs b * (-1 / freqs b) * lam 0 = 1 := by
    have : freqs b * freqs b = lam 0 := by rw [hf]; exact Real.mul_self_sqrt hl.le
    rw [← this]
    field_simp
  have hsplit : ∀ f g : ℕ → ℝ, integral (P.nx * P.ny * P.nz) Vol (fun r => f r + g r) = integral P.data.N Vol f + integral P.data.N Vol g := by
    intro f g
    show Vol / ((P.data.N : ℕ) : ℝ) * ∑ r ∈ Finset.range P.data.N, (f r + g r) = _
    rw [Finset.sum_add_distrib, mul_add]
    rfl
  rw [hsplit, i1, i2]
  convert key using 1
  linear_combination (gridForm P.data.N dE (curlField P.data K (bandMuinv P.data (band p H b))) (curlField P.data K (bandMuinv P.data (band p H b)))).re * hsq

/-! ### Regions -/

theorem times_deriv (R : Prop) [Decidable R] (i : HMat) :
    TensorDeriv (fun t => if R then times (1 / Real.exp t) i else i) (if R then times (-1) i else ⟨0, 0, 0, 0, 0, 0⟩) := by
  have hexp : HasDerivAt (fun t : ℝ => 1 / Real.exp t) (-1) 0 := by
    have h := (Real.hasDerivAt_exp 0).fun_inv (Real.exp_pos 0).ne'
    simpa [one_div] using h
  by_cases h : R
  · simp only [if_pos h]
    have hc := hexp.ofReal_comp
    exact ⟨hexp.mul_const _, hexp.mul_const _, hexp.mul_const _, by simpa [times] using hc.mul_const i.m01, by simpa [times] using hc.mul_const i.m02,
      by simpa [times] using hc.mul_const i.m12⟩
  · simp only [if_neg h]
    exact ⟨hasDerivAt_const _ _, hasDerivAt_const _ _, hasDerivAt_const _ _, hasDerivAt_const _ _, hasDerivAt_const _ _, hasDerivAt_const _ _⟩

theorem const_deriv (i : HMat) : TensorDeriv (fun _ => i) ⟨0, 0, 0, 0, 0, 0⟩ :=
  ⟨hasDerivAt_const _ _, hasDerivAt_const _ _, hasDerivAt_const _ _, hasDerivAt_const _ _, hasDerivAt_const _ _, hasDerivAt_const _ _⟩

theorem herm_times (v : V3 ℂ) (t : ℝ) (i : HMat) : (herm v ((times t i).mulVec v)).re = t * (herm v (i.mulVec v)).re := by
  simp [herm, HMat.mulVec, times]
  ring

theorem herm_zero (v : V3 ℂ) : (herm v ((⟨0, 0, 0, 0, 0, 0⟩ : HMat).mulVec v)).re = 0 := by
  simp [herm, HMat.mulVec]

theorem posDef_times {i : HMat} (h : Tensor.Spec.PosDef i) {t : ℝ} (ht : 0 < t) : Tensor.Spec.PosDef (times t i) := by
  intro v hv
  have e : Tensor.Spec.toMatrix (times t i) = (t : ℂ) • Tensor.Spec.toMatrix i := by
    ext a b
    fin_cases a <;> fin_cases b <;> simp [times, Tensor.Spec.toMatrix]
  rw [e, smul_mulVec, dotProduct_smul, smul_eq_mul, Complex.re_ofReal_mul]
  exact mul_pos ht (h v hv)

theorem times_one (i : HMat) : times (1 / Real.exp 0) i = i := by simp [times]

/-- From the exponential of a parameter back to the factor itself, and from the squared frequency to the frequency. -/
theorem log_derivative {lam : ℝ → ℝ} {c : ℝ} (h : HasDerivAt (fun t => lam (Real.exp t)) (lam 1 * -c) 0) (hl : 0 < lam 1) :
    HasDerivAt (fun s => Real.sqrt (lam s)) (-(Real.sqrt (lam 1) / 2) * c) 1 := by
  have h1 : HasDerivAt lam (lam 1 * -c) 1 := by
    have h0 : HasDerivAt (fun t => lam (Real.exp t)) (lam 1 * -c) (Real.log 1) := by rwa [Real.log_one]
    have h2 := h0.comp 1 (Real.hasDerivAt_log one_ne_zero)
    rw [inv_one, mul_one] at h2
    refine h2.congr_of_eventuallyEq ?_
    filter_upwards [lt_mem_nhds (zero_lt_one (α := ℝ))] with s hs
    simp [Real.exp_log hs]
  have h3 := h1.sqrt hl.ne'
  convert h3 using 1
  have hs : Real.sqrt (lam 1) ≠ 0 := (Real.sqrt_pos.2 hl).ne'
  have e := Real.mul_self_sqrt hl.le
  field_simp
  rw [sq, e]
  ring

/-- The electric energy density. -/
theorem densityD (d : OpData) (F : ℕ → ℂ) {r : ℕ} (hr : r < d.N) : densityOf d 'd' F r = (herm (at3 F r) ((d.epsInv r).mulVec (at3 F r))).re := by
  unfold densityOf
  rw [(C42_in_place _ _ _ _).1 r hr, cvec_at3]
  unfold energyField
  rw [if_pos rfl]

/-- The magnetic energy density. -/
theorem densityB (P : Problem) (F : ℕ → ℂ) {r : ℕ} (hr : r < P.data.N) : densityOf P.data 'b' F r = (herm (at3 F r) ((invMu P r).mulVec (at3 F r))).re := by
  unfold densityOf
  rw [(C42_in_place _ _ _ _).1 r hr, cvec_at3]
  unfold energyField
  rw [if_neg (by decide), if_pos rfl]
  have h : P.data.muInv = P.muInv := rfl
  rw [h]
  unfold invMu
  cases P.muInv with
  | none => simp [herm, HMat.mulVec]
  | some f => rfl

/-- C112 (electric energy in a region).  Multiply the permittivity at the grid points of a region by `s`.  If band `n` is not degenerate for `s = 1`, its
frequency is differentiable there, with derivative `-ω/2` times the integral over the region of the energy density that `get-dfield` followed by
`compute-field-energy` leaves. -/
theorem C112_electric (P : Problem) (hn : 0 < P.nfb) (hμ : ∀ r < P.nx * P.ny * P.nz, Tensor.Spec.PosDef (invMu P r)) (R : ℕ → Prop) [DecidablePred R]
    (lam : ℝ → ℝ) (n : ℕ) (hb : ∀ s > 0, BandIs (scaleEps P R s).data n (lam s)) (hs : Simple P.data (lam 1)) (hl : 0 < lam 1)
    (p : ℕ) (H W0 buf buf2 : ℕ → ℂ) (freqs : ℕ → ℝ) (b : ℕ) (Vol : ℝ) (hV : 0 < Vol) (hx : EigenBand P.data (band p H b) (lam 1))
    (hf : freqs b = Real.sqrt (lam 1)) :
    HasDerivAt (fun s => Real.sqrt (lam s)) (-(freqs b / 2) * integral (P.nx * P.ny * P.nz) Vol (fun r =>
      if R r then densityOf P.data 'd' (getD P.data p H W0 buf buf2 freqs Vol b) r else 0)) 1 := by
  rw [hf]
  refine log_derivative ?_ hl
  have e1 : lam 1 = lam (Real.exp 0) := by rw [Real.exp_zero]
  have key := C112_derivative P hn (fun t r => if R r then times (1 / Real.exp t) (P.epsInv r) else P.epsInv r) (fun _ => P.muInv)
    (fun r _ => by simp only [times_one, ite_self]) (fun r _ => rfl) (fun t r hr => hμ r hr)
    (fun r => if R r then times (-1) (P.epsInv r) else ⟨0, 0, 0, 0, 0, 0⟩) (fun _ => ⟨0, 0, 0, 0, 0, 0⟩)
    (fun r _ => times_deriv (R r) (P.epsInv r)) (fun r _ => const_deriv (invMu P r)) (fun t => lam (Real.exp t)) n
    (fun t => hb _ (Real.exp_pos t)) (by rwa [← e1]) (by rwa [← e1]) p H W0 buf buf2 buf freqs b Vol hV (by rwa [← e1]) (by rwa [← e1])
  convert key using 1
  rw [← e1]
  congr 1
  unfold integral
  rw [← mul_neg, ← Finset.sum_neg_distrib]
  congr 1
  refine Finset.sum_congr rfl fun r hr => ?_
  simp only [herm_zero, add_zero]
  split_ifs with h
  · rw [herm_times, densityD _ _ (Finset.mem_range.1 hr), neg_one_mul]
    rfl
  · rw [herm_zero, neg_zero]

/-- C112 (magnetic energy in a region).  The same for the permeability and the energy density of `get-bfield`. -/
theorem C112_magnetic (P : Problem) (hn : 0 < P.nfb) (hμ : ∀ r < P.nx * P.ny * P.nz, Tensor.Spec.PosDef (invMu P r)) (R : ℕ → Prop) [DecidablePred R]
    (lam : ℝ → ℝ) (n : ℕ) (hb : ∀ s > 0, BandIs (scaleMu P R s).data n (lam s)) (hs : Simple P.data (lam 1)) (hl : 0 < lam 1)
    (p : ℕ) (H buf : ℕ → ℂ) (b : ℕ) (Vol : ℝ) (hV : 0 < Vol) (hx : EigenBand P.data (band p H b) (lam 1)) :
    HasDerivAt (fun s => Real.sqrt (lam s)) (-(Real.sqrt (lam 1) / 2) * integral (P.nx * P.ny * P.nz) Vol (fun r =>
      if R r then densityOf P.data 'b' (getB P.data p H buf Vol b) r else 0)) 1 := by
  refine log_derivative ?_ hl
  have e1 : lam 1 = lam (Real.exp 0) := by rw [Real.exp_zero]
  have key := C112_derivative P hn (fun _ => P.epsInv) (fun t => some fun r => if R r then times (1 / Real.exp t) (invMu P r) else invMu P r)
    (fun _ _ => rfl) (fun r _ => by show (if R r then times (1 / Real.exp 0) (invMu P r) else invMu P r) = _; simp only [times_one, ite_self])
    (fun t r hr => by
      show Tensor.Spec.PosDef (if R r then times (1 / Real.exp t) (invMu P r) else invMu P r)
      split_ifs
      · exact posDef_times (hμ r hr) (one_div_pos.2 (Real.exp_pos t))
      · exact hμ r hr)
    (fun _ => ⟨0, 0, 0, 0, 0, 0⟩) (fun r => if R r then times (-1) (invMu P r) else ⟨0, 0, 0, 0, 0, 0⟩)
    (fun r _ => const_deriv (P.epsInv r)) (fun r _ => times_deriv (R r) (invMu P r)) (fun t => lam (Real.exp t)) n
    (fun t => hb _ (Real.exp_pos t)) (by rwa [← e1]) (by rwa [← e1]) p H 0 buf buf buf (fun _ => Real.sqrt (lam 1)) b Vol hV (by rwa [← e1]) (by simp only [← e1])
  convert key using 1
  rw [← e1]
  congr 1
  unfold integral
  rw [← mul_neg, ← Finset.sum_neg_distrib]
  congr 1
  refine Finset.sum_congr rfl fun r hr => ?_
  simp only [herm_zero, zero_add]
  split_ifs with h
  · rw [herm_times, densityB _ _ (Finset.mem_range.1 hr), neg_one_mul]
  · rw [herm_zero, neg_zero]

/-! ### What the two functions return -/

theorem flat_general (P : Problem) (N : ℕ) (f : ℕ → ℝ) : flatSum (gridOf P) N f = ∑ r ∈ Finset.range N, f r := by
  rw [← rangeSum_serial, ← rangeSum_false]
  rfl

open Classical in
theorem inDielectric_eq (heev : Epsilon.Heev) (P : Problem) (Vol : ℝ) {ty : Char} (hty : ty ∈ ['D', 'H', 'B', 'R']) (e : ℕ → ℝ) (lo hi : ℝ) :
    computeEnergyInDielectric heev (gridOf P) (gridOf P).outSize (P.nx * P.ny * P.nz) Vol P.epsInv (some (ty, e)) lo hi =
      integral (P.nx * P.ny * P.nz) Vol (fun r => if InRange heev (P.epsInv r) lo hi then e r else 0) := by
  unfold computeEnergyInDielectric isDensity
  simp only
  rw [if_pos hty]
  simp only
  rw [flat_general, mul_comm]
  rfl

theorem inObjects_eq (P : Problem) (hx : 0 < P.nx) (hy : 0 < P.ny) (hz : 0 < P.nz) (size : V3 ℝ) (Vol : ℝ) (j0 : ℤ) {ty : Char}
    (hty : ty ∈ ['D', 'H', 'B', 'R']) (e : ℕ → ℝ) (objects : List Body) :
    computeEnergyInObjects (gridOf P) size (P.nx * P.ny * P.nz) Vol j0 (some (ty, e)) objects =
      integral (P.nx * P.ny * P.nz) Vol (fun r => if insideList objects (gridPoint (gridOf P) size (gridIndex P r)) = true then e r else 0) := by
  have hS : (gridOf P).Ok := ⟨hx, hy, hz, fun h => absurd h (by simp [gridOf])⟩
  unfold computeEnergyInObjects isDensity
  simp only
  rw [if_pos hty]
  simp only
  rw [C41_objects_partial hS rfl j0 _ e (fun p => e (addr (gridOf P) p)) (fun p _ _ _ => rfl)]
  have h := C41_flat (S := gridOf P) hS (fun h => absurd h (by simp [gridOf]))
    (e := fun r => if insideList objects (gridPoint (gridOf P) size (gridIndex P r)) = true then e r else 0)
    (F := fun p => if insideList objects (gridPoint (gridOf P) size p) = true then e (addr (gridOf P) p) else 0)
    (fun p _ h2 h3 => by
      have : gridIndex P (addr (gridOf P) p) = p := by
        have h2' : p.2.1 < P.ny := h2
        have h3' : p.2.2 < P.nz := h3
        show gridIndex P ((p.1 * P.ny + p.2.1) * P.nz + p.2.2) = p
        unfold gridIndex
        rw [split_x _ h2' h3', split_y _ h2' h3', split_z _ h3']
      simp only [this]) (fun h => absurd h (by simp [gridOf]))
  rw [← h, flat_general, mul_comm]
  rfl

theorem inRange_iff {heev : Epsilon.Heev} (hh : Epsilon.Spec.HeevOk heev) (e : HMat) (lo hi : ℝ) : InRange heev e lo hi ↔ DielectricIn lo hi e := by
  have hE := Epsilon.eigs_ok hh e
  have e2 : ∀ x : ℝ, 1 / (x / 2) = 2 / x := fun x => by rw [one_div_div]
  constructor
  · rintro ⟨v, hv, h1, h2⟩
    unfold Epsilon.meanMedium at hv
    simp only at hv
    split_ifs at hv with h
    refine ⟨_, hE, h, ?_⟩
    rw [e2, Option.some.inj hv]
    exact ⟨h1, h2⟩
  · rintro ⟨τ, hτ, h0, h1, h2⟩
    have hu := Epsilon.eig_unique_two hE hτ
    refine ⟨2 / (τ 0 + τ 1), ?_, by rw [← e2]; exact h1, by rw [← e2]; exact h2⟩
    unfold Epsilon.meanMedium
    simp only
    rw [hu, if_neg h0]

theorem insideList_iff (objects : List Body) (p : V3 ℝ) : insideList objects p = true ↔ InsideObjects objects p := by
  unfold insideList InsideObjects
  constructor
  · intro h
    cases hf : objects.reverse.find? (fun o => o.contains p) with
    | none => rw [hf] at h; simp at h
    | some o =>
      rw [hf] at h
      obtain ⟨h1, l, r, h2, h3⟩ := List.find?_eq_some_iff_append.1 hf
      refine ⟨r.reverse, o, l.reverse, ?_, h1, by simpa using h, fun o' ho' => by simpa using h3 o' (List.mem_reverse.1 ho')⟩
      rw [← List.reverse_reverse objects, h2]
      simp
  · rintro ⟨before, o, after, rfl, h1, h2, h3⟩
    have hf : (before ++ o :: after).reverse.find? (fun o => o.contains p) = some o := by
      refine List.find?_eq_some_iff_append.2 ⟨h1, after.reverse, before.reverse, by simp, fun o' ho' => by simp [h3 o' (List.mem_reverse.1 ho')]⟩
    rw [hf]
    simp [h2]

theorem coordinate_eq {n : ℕ} (hn : 0 < n) (s : ℝ) {i : ℕ} (hi : i < n) : (i : ℝ) * (s / n) - (if n ≤ 1 then 0 else s * 0.5) = coordinate n s i := by
  unfold coordinate
  by_cases h : n = 1
  · subst h
    have : i = 0 := by omega
    subst this
    simp
  · rw [if_neg h, if_neg (by omega)]
    ring

theorem position_eq (P : Problem) (size : V3 ℝ) {r : ℕ} (hr : r < P.nx * P.ny * P.nz) : gridPoint (gridOf P) size (gridIndex P r) = position P size r := by
  have hz : 0 < P.nz := Nat.pos_of_ne_zero fun h => by rw [h] at hr; omega
  have hy : 0 < P.ny := Nat.pos_of_ne_zero fun h => by rw [h] at hr; simp at hr
  have h1 : r / P.nz < P.nx * P.ny := (Nat.div_lt_iff_lt_mul hz).2 hr
  have h2 : r / P.nz / P.ny < P.nx := (Nat.div_lt_iff_lt_mul hy).2 h1
  unfold gridPoint position
  ext
  · exact coordinate_eq (lt_of_le_of_lt (Nat.zero_le _) h2) _ h2
  · exact coordinate_eq hy _ (Nat.mod_lt _ hy)
  · exact coordinate_eq hz _ (Nat.mod_lt _ hz)

open Classical in
theorem inside_congr (P : Problem) (size : V3 ℝ) (objects : List Body) (Vol : ℝ) (e : ℕ → ℝ) :
    integral (P.nx * P.ny * P.nz) Vol (fun r => if insideList objects (gridPoint (gridOf P) size (gridIndex P r)) = true then e r else 0) =
      integral (P.nx * P.ny * P.nz) Vol (fun r => if InsideObjects objects (position P size r) then e r else 0) := by
  unfold integral
  rw [Finset.sum_congr rfl fun r hr => ?_]
  dsimp only
  rw [position_eq P size (Finset.mem_range.1 hr)]
  exact if_congr (insideList_iff _ _) rfl rfl

theorem integral_congr {N : ℕ} {Vol : ℝ} {f g : ℕ → ℝ} (h : ∀ r < N, f r = g r) : integral N Vol f = integral N Vol g := by
  unfold integral
  rw [Finset.sum_congr rfl fun r hr => h r (Finset.mem_range.1 hr)]

open Classical in
/-- C112 (`compute-energy-in-dielectric`).  Multiply by `s` the permittivity of all grid points whose dielectric constant, as `output-epsilon` shows it, lies
between `lo` and `hi`.  The derivative of the frequency of a nondegenerate band with respect to `s` at 1 is `-ω/2` times what
`compute-energy-in-dielectric lo hi` returns after `get-dfield` and `compute-field-energy`. -/
theorem C112_in_dielectric (P : Problem) (hn : 0 < P.nfb) (hμ : ∀ r < P.nx * P.ny * P.nz, Tensor.Spec.PosDef (invMu P r)) {heev : Epsilon.Heev} (hh : Epsilon.Spec.HeevOk heev)
    (lo hi : ℝ) (lam : ℝ → ℝ) (n : ℕ) (hb : ∀ s > 0, BandIs (scaleEps P (fun r => DielectricIn lo hi (P.epsInv r)) s).data n (lam s)) (hs : Simple P.data (lam 1))
    (hl : 0 < lam 1) (p : ℕ) (H W0 buf buf2 : ℕ → ℂ) (freqs : ℕ → ℝ) (b : ℕ) (Vol : ℝ) (hV : 0 < Vol) (hx : EigenBand P.data (band p H b) (lam 1))
    (hf : freqs b = Real.sqrt (lam 1)) :
    HasDerivAt (fun s => Real.sqrt (lam s)) (-(freqs b / 2) * computeEnergyInDielectric heev (gridOf P) (gridOf P).outSize (P.nx * P.ny * P.nz) Vol P.epsInv
      (afterD P.data p H W0 buf buf2 freqs Vol b) lo hi) 1 := by
  unfold afterD
  rw [inDielectric_eq heev P Vol (by decide), integral_congr fun r _ => by rw [show InRange heev (P.epsInv r) lo hi = DielectricIn lo hi (P.epsInv r) from
    propext (inRange_iff hh _ _ _)]]
  exact C112_electric P hn hμ _ lam n hb hs hl p H W0 buf buf2 freqs b Vol hV hx hf

open Classical in
/-- C112 (`compute-energy-in-objects`).  The same for the grid points inside a list of objects, the last object at a point deciding. -/
theorem C112_in_objects (P : Problem) (hn : 0 < P.nfb) (hg : 0 < P.nx ∧ 0 < P.ny ∧ 0 < P.nz) (hμ : ∀ r < P.nx * P.ny * P.nz, Tensor.Spec.PosDef (invMu P r))
    (size : V3 ℝ) (objects : List Body) (lam : ℝ → ℝ) (n : ℕ)
    (hb : ∀ s > 0, BandIs (scaleEps P (fun r => InsideObjects objects (position P size r)) s).data n (lam s))
    (hs : Simple P.data (lam 1)) (hl : 0 < lam 1) (p : ℕ) (H W0 buf buf2 : ℕ → ℂ) (freqs : ℕ → ℝ) (b : ℕ) (Vol : ℝ) (hV : 0 < Vol)
    (hx : EigenBand P.data (band p H b) (lam 1)) (hf : freqs b = Real.sqrt (lam 1)) (j0 : ℤ) :
    HasDerivAt (fun s => Real.sqrt (lam s)) (-(freqs b / 2) * computeEnergyInObjects (gridOf P) size (P.nx * P.ny * P.nz) Vol j0
      (afterD P.data p H W0 buf buf2 freqs Vol b) objects) 1 := by
  unfold afterD
  rw [inObjects_eq P hg.1 hg.2.1 hg.2.2 size Vol j0 (by decide), inside_congr]
  exact C112_electric P hn hμ _ lam n hb hs hl p H W0 buf buf2 freqs b Vol hV hx hf

open Classical in
/-- C112 (permeability, in a list of objects).  The derivative with respect to a factor of the permeability is `-ω/2` times what
`compute-energy-in-objects` returns after `get-bfield` and `compute-field-energy`. -/
theorem C112_mu_in_objects (P : Problem) (hn : 0 < P.nfb) (hg : 0 < P.nx ∧ 0 < P.ny ∧ 0 < P.nz) (hμ : ∀ r < P.nx * P.ny * P.nz, Tensor.Spec.PosDef (invMu P r))
    (size : V3 ℝ) (objects : List Body) (lam : ℝ → ℝ) (n : ℕ)
    (hb : ∀ s > 0, BandIs (scaleMu P (fun r => InsideObjects objects (position P size r)) s).data n (lam s))
    (hs : Simple P.data (lam 1)) (hl : 0 < lam 1) (p : ℕ) (H buf : ℕ → ℂ) (b : ℕ) (Vol : ℝ) (hV : 0 < Vol)
    (hx : EigenBand P.data (band p H b) (lam 1)) (j0 : ℤ) :
    HasDerivAt (fun s => Real.sqrt (lam s)) (-(Real.sqrt (lam 1) / 2) * computeEnergyInObjects (gridOf P) size (P.nx * P.ny * P.nz) Vol j0
      (afterB P.data p H buf Vol b) objects) 1 := by
  unfold afterB
  rw [inObjects_eq P hg.1 hg.2.1 hg.2.2 size Vol j0 (by decide), inside_congr]
  exact C112_magnetic P hn hμ _ lam n hb hs hl p H buf b Vol hV hx

/-! ### A concrete case -/

/-- One grid point, lattice vectors of unit length, wavevector (1, 0, 0), permittivity diag(1, 4, 2). -/
noncomputable def exP : Problem := ⟨1, 1, 1, 1, ⟨⟨1, 0, 0⟩, ⟨0, 1, 0⟩, ⟨0, 0, 1⟩⟩, ⟨1, 0, 0⟩, fun _ => ⟨1, 1 / 4, 1 / 2, 0, 0, 0⟩, none⟩

theorem exP_kpg : exP.data.kpg 0 = ⟨1, ⟨0, 0, -1⟩, ⟨0, 1, 0⟩⟩ := by
  have h := kpgArr_apply (nx := 1) (ny := 1) (nz := 1) (x := 0) (y := 0) (z := 0) (by norm_num) (by norm_num) (by norm_num)
    (Velocity.latticeGm exP.Rm).c0 (Velocity.latticeGm exP.Rm).c1 (Velocity.latticeGm exP.Rm).c2 exP.k
  refine Eq.trans h ?_
  have g : Velocity.latticeGm exP.Rm = M3.one := by
    ext <;> simp [exP, Velocity.latticeGm, MpbData.inverse, M3.det, M3.one, M3.transpose, V3.smul, V3.cross]
  rw [g]
  have w : waveVec M3.one.c0 M3.one.c1 M3.one.c2 exP.k ⟨-harm 1 0, -harm 1 0, -harm 1 0⟩ = ⟨1, 0, 0⟩ := by
    ext <;> simp [exP, waveVec, harm, M3.one]
  rw [w]
  simp [kData, Maxwell.normalize, V3.cross]

theorem exP_dft (sgn : ℝ) : dft sgn 1 1 1 0 0 = 1 := by simp [dft]

/-- Its operator, for any diagonal tensor. -/
theorem exP_op (a b c : ℝ) (R : Problem) (hR : R = withTensors exP (fun _ => ⟨a, b, c, 0, 0, 0⟩) none) (x : ℕ → ℂ × ℂ) :
    bandMaxwell R.data x 0 = ((b : ℂ) * (x 0).1, (c : ℂ) * (x 0).2) := by
  subst hR
  have hk : (withTensors exP (fun _ => ⟨a, b, c, 0, 0, 0⟩) none).data.kpg 0 = ⟨1, ⟨0, 0, -1⟩, ⟨0, 1, 0⟩⟩ := exP_kpg
  have hN : (withTensors exP (fun _ => ⟨a, b, c, 0, 0, 0⟩) none).data.N = 1 := rfl
  have hWf : (withTensors exP (fun _ => ⟨a, b, c, 0, 0, 0⟩) none).data.Wf 0 0 = 1 := exP_dft _
  have hWb : (withTensors exP (fun _ => ⟨a, b, c, 0, 0, 0⟩) none).data.Wb 0 0 = 1 := exP_dft _
  have he : (withTensors exP (fun _ => ⟨a, b, c, 0, 0, 0⟩) none).data.epsInv = fun _ => ⟨a, b, c, 0, 0, 0⟩ := rfl
  have hm : (withTensors exP (fun _ => ⟨a, b, c, 0, 0, 0⟩) none).data.muInv = none := rfl
  unfold bandMaxwell
  rw [hm]
  simp only
  unfold bandOp colOp transform
  rw [hN]
  simp only [Finset.sum_range_one, hWf, hWb, hk, he]
  refine Prod.ext ?_ ?_ <;> apply Complex.ext <;> simp [crossT2c, crossC2t, HMat.mulVec]

theorem exP_mode (a b c : ℝ) (R : Problem) (hR : R = withTensors exP (fun _ => ⟨a, b, c, 0, 0, 0⟩) none) (lam : ℝ) (X : ℕ → ℂ) :
    IsMode R.data lam X ↔ (X 0 ≠ 0 ∨ X 1 ≠ 0) ∧ (b : ℂ) * X 0 = lam * X 0 ∧ (c : ℂ) * X 1 = lam * X 1 := by
  have hN : R.data.N = 1 := by subst hR; rfl
  have hm : R.data.muInv = none := by subst hR; rfl
  rw [isMode_iff _ (by subst hR; exact Nat.one_pos), band_pairs]
  have hp : pairs X 0 = (X 0, X 1) := rfl
  have hmu : ∀ x, bandMuinv R.data x = x := by intro x; unfold bandMuinv; rw [hm]
  rw [hN]
  constructor
  · rintro ⟨⟨G, hG, h1⟩, h2⟩
    obtain rfl : G = 0 := by omega
    have h3 := h2 0 Nat.one_pos
    rw [exP_op a b c R hR, hmu, hp] at h3
    rw [hp] at h1
    refine ⟨?_, congrArg Prod.fst h3, congrArg Prod.snd h3⟩
    by_contra hc
    push Not at hc
    exact h1 (Prod.ext hc.1 hc.2)
  · rintro ⟨h1, h2, h3⟩
    refine ⟨⟨0, Nat.one_pos, fun h => ?_⟩, fun G hG => ?_⟩
    · rw [hp] at h
      rcases h1 with h1 | h1
      · exact h1 (congrArg Prod.fst h)
      · exact h1 (congrArg Prod.snd h)
    · obtain rfl : G = 0 := by omega
      rw [exP_op a b c R hR, hmu, hp]
      exact Prod.ext h2 h3

/-- Its first band, the smaller of the two entries. -/
theorem exP_band (a b c : ℝ) (hbc : b < c) (R : Problem) (hR : R = withTensors exP (fun _ => ⟨a, b, c, 0, 0, 0⟩) none) : BandIs R.data 1 b := by
  have hN : R.data.N = 1 := by subst hR; rfl
  constructor
  · refine ⟨fun _ a => if a = 0 then 1 else 0, fun z hz i => ?_, fun _ => ⟨b, le_rfl, (exP_mode a b c R hR _ _).2 (by simp)⟩⟩
    have := hz 0 (by rw [hN]; norm_num)
    rw [Fin.sum_univ_one] at this
    obtain rfl : i = 0 := Subsingleton.elim _ _
    simpa using this
  · rintro mu hmu ⟨X, -, hX⟩
    obtain ⟨nu, hle, hm⟩ := hX 0
    obtain ⟨h1, h2, h3⟩ := (exP_mode a b c R hR _ _).1 hm
    rcases h1 with h1 | h1
    · have : (b : ℂ) = nu := mul_right_cancel₀ h1 h2
      have : b = nu := by exact_mod_cast this
      linarith
    · have : (c : ℂ) = nu := mul_right_cancel₀ h1 h3
      have : c = nu := by exact_mod_cast this
      linarith

theorem exP_simple : Simple exP.data (1 / 4) := by
  intro X Y hX hY
  obtain ⟨h1, -, h3⟩ := (exP_mode 1 (1 / 4) (1 / 2) exP rfl _ _).1 hX
  obtain ⟨-, -, k3⟩ := (exP_mode 1 (1 / 4) (1 / 2) exP rfl _ _).1 hY
  have hX1 : X 1 = 0 := by
    have h : ((1 / 4 : ℝ) : ℂ) * X 1 = 0 := by
      have : ((1 / 2 : ℝ) : ℂ) - ((1 / 4 : ℝ) : ℂ) = ((1 / 4 : ℝ) : ℂ) := by push_cast; norm_num
      rw [← this, sub_mul, h3, sub_self]
    exact (mul_eq_zero.1 h).resolve_left (by norm_num)
  have hY1 : Y 1 = 0 := by
    have h : ((1 / 4 : ℝ) : ℂ) * Y 1 = 0 := by
      have : ((1 / 2 : ℝ) : ℂ) - ((1 / 4 : ℝ) : ℂ) = ((1 / 4 : ℝ) : ℂ) := by push_cast; norm_num
      rw [← this, sub_mul, k3, sub_self]
    exact (mul_eq_zero.1 h).resolve_left (by norm_num)
  have hX0 : X 0 ≠ 0 := h1.resolve_right (fun h => h hX1)
  refine ⟨Y 0 / X 0, fun a ha => ?_⟩
  have hN : exP.data.N = 1 := rfl
  rw [hN] at ha
  interval_cases a
  · rw [div_mul_cancel₀ _ hX0]
  · rw [hX1, hY1, mul_zero]

theorem exP_eigen : EigenBand exP.data (band 1 (fun a => if a = 0 then 1 else 0) 0) (1 / 4) := by
  have hm : ∀ x, bandMuinv exP.data x = x := fun x => rfl
  constructor
  · intro G hG
    have hN : exP.data.N = 1 := rfl
    obtain rfl : G = 0 := by omega
    rw [exP_op 1 (1 / 4) (1 / 2) exP rfl, hm]
    simp [band]
  · rw [hm]
    show ∑ G ∈ Finset.range 1, _ = _
    simp [band, hermT]

/-- Non-vacuity of `C112_electric` (so of `C112_in_dielectric` and `C112_in_objects`, with the whole cell as the region): the first band has frequency 1/2,
and multiplied permittivities give `1/(2 √s)`, with derivative -1/4 at 1; so the energy is 1. -/
example : (∀ s > 0, BandIs (scaleEps exP (fun _ => True) s).data 1 (1 / (4 * s))) ∧ Simple exP.data (1 / 4) ∧
    EigenBand exP.data (band 1 (fun a => if a = 0 then 1 else 0) 0) (1 / 4) ∧ (∀ r < 1, Tensor.Spec.PosDef (invMu exP r)) ∧
    HasDerivAt (fun s => Real.sqrt (1 / (4 * s))) (-(1 / 2 / 2) * integral 1 1 (fun r =>
      if True then densityOf exP.data 'd' (getD exP.data 1 (fun a => if a = 0 then 1 else 0) 0 0 0 (fun _ => 1 / 2) 1 0) r else 0)) 1 := by
  have hb : ∀ s > 0, BandIs (scaleEps exP (fun _ => True) s).data 1 (1 / (4 * s)) := by
    intro s hs
    have h : 1 / (4 * s) < 1 / (2 * s) := by
      apply one_div_lt_one_div_of_lt <;> linarith
    refine exP_band (1 / s) (1 / (4 * s)) (1 / (2 * s)) h _ ?_
    unfold scaleEps
    congr 1
    funext r
    simp only [if_true, times, exP]
    congr 1
    · rw [mul_one]
    · field_simp
    · field_simp
    · simp
    · simp
    · simp
  have hp : ∀ r < 1, Tensor.Spec.PosDef (invMu exP r) := by
    intro r _
    refine (posDef_iff _).2 ?_
    have e : Tensor.Spec.toMatrix (invMu exP r) = 1 := by
      ext i j
      fin_cases i <;> fin_cases j <;> simp [Tensor.Spec.toMatrix, invMu, exP]
    rw [e]
    exact Matrix.PosDef.one
  have q : Real.sqrt (1 / (4 * 1)) = 1 / 2 := by
    rw [show (1 / (4 * 1) : ℝ) = (1 / 2) ^ 2 by norm_num, Real.sqrt_sq (by norm_num)]
  refine ⟨hb, exP_simple, exP_eigen, hp, ?_⟩
  exact C112_electric exP Nat.one_pos hp (fun _ => True) (fun s => 1 / (4 * s)) 1 hb (by norm_num; simpa using exP_simple) (by norm_num) 1 _ 0 0 0
    (fun _ => 1 / 2) 0 1 one_pos (by norm_num; simpa using exP_eigen) q.symm

theorem exP_mu (u : ℝ) (R : Problem) (hR : R = withTensors exP exP.epsInv (some fun _ => ⟨u, u, u, 0, 0, 0⟩)) (x : ℕ → ℂ × ℂ) :
    bandMuinv R.data x 0 = ((u : ℂ) * (x 0).1, (u : ℂ) * (x 0).2) := by
  have hk : R.data.kpg 0 = ⟨1, ⟨0, 0, -1⟩, ⟨0, 1, 0⟩⟩ := by subst hR; exact exP_kpg
  have hN : R.data.N = 1 := by subst hR; rfl
  have hWf : R.data.Wf 0 0 = 1 := by subst hR; exact exP_dft _
  have hWb : R.data.Wb 0 0 = 1 := by subst hR; exact exP_dft _
  have hm : R.data.muInv = some fun _ => ⟨u, u, u, 0, 0, 0⟩ := by subst hR; rfl
  unfold bandMuinv
  rw [hm]
  simp only
  unfold bandMu colOp transform
  rw [hN]
  simp only [Finset.sum_range_one, hWf, hWb, hk]
  refine Prod.ext ?_ ?_ <;> apply Complex.ext <;> simp [t2c, c2t, HMat.mulVec]

theorem exP_curl (R : Problem) (u : ℝ) (hR : R = withTensors exP exP.epsInv (some fun _ => ⟨u, u, u, 0, 0, 0⟩)) (x : ℕ → ℂ × ℂ) :
    bandOp R.data x 0 = (((1 / 4 : ℝ) : ℂ) * (x 0).1, ((1 / 2 : ℝ) : ℂ) * (x 0).2) := by
  have h := exP_op 1 (1 / 4) (1 / 2) exP rfl x
  subst hR
  exact h

theorem exP_mu_band (u : ℝ) (hu : 0 < u) (R : Problem) (hR : R = withTensors exP exP.epsInv (some fun _ => ⟨u, u, u, 0, 0, 0⟩)) : BandIs R.data 1 (u / 4) := by
  have hN : R.data.N = 1 := by subst hR; rfl
  have hn : 0 < R.nfb := by subst hR; exact Nat.one_pos
  have hmode : ∀ lam X, IsMode R.data lam X ↔ (X 0 ≠ 0 ∨ X 1 ≠ 0) ∧ (u : ℂ) * (((1 / 4 : ℝ) : ℂ) * (u * X 0)) = lam * (u * X 0) ∧
      (u : ℂ) * (((1 / 2 : ℝ) : ℂ) * (u * X 1)) = lam * (u * X 1) := by
    intro lam X
    have hA : bandMaxwell R.data (pairs X) 0 = ((u : ℂ) * (((1 / 4 : ℝ) : ℂ) * (u * X 0)), (u : ℂ) * (((1 / 2 : ℝ) : ℂ) * (u * X 1))) := by
      have h1 : bandMaxwell R.data (pairs X) = bandMuinv R.data (bandOp R.data (bandMuinv R.data (pairs X))) := by
        unfold bandMaxwell bandMuinv
        cases R.data.muInv <;> rfl
      rw [h1, exP_mu u R hR, exP_curl R u hR, exP_mu u R hR]
      rfl
    rw [isMode_iff _ hn, band_pairs, hN]
    constructor
    · rintro ⟨⟨G, hG, h1⟩, h2⟩
      obtain rfl : G = 0 := by omega
      have h3 := h2 0 Nat.one_pos
      rw [hA, exP_mu u R hR] at h3
      refine ⟨?_, congrArg Prod.fst h3, congrArg Prod.snd h3⟩
      by_contra hc
      push Not at hc
      exact h1 (Prod.ext hc.1 hc.2)
    · rintro ⟨h1, h2, h3⟩
      refine ⟨⟨0, Nat.one_pos, fun h => ?_⟩, fun G hG => ?_⟩
      · rcases h1 with h1 | h1
        · exact h1 (congrArg Prod.fst h)
        · exact h1 (congrArg Prod.snd h)
      · obtain rfl : G = 0 := by omega
        rw [hA, exP_mu u R hR]
        exact Prod.ext h2 h3
  have hu0 : (u : ℂ) ≠ 0 := by exact_mod_cast hu.ne'
  constructor
  · refine ⟨fun _ a => if a = 0 then 1 else 0, fun z hz i => ?_, fun _ => ⟨u / 4, le_rfl, (hmode _ _).2 ⟨by simp, ?_, by simp⟩⟩⟩
    · have := hz 0 (by rw [hN]; norm_num)
      rw [Fin.sum_univ_one] at this
      obtain rfl : i = 0 := Subsingleton.elim _ _
      simpa using this
    · push_cast
      simp
      ring
  · rintro mu hmu ⟨X, -, hX⟩
    obtain ⟨nu, hle, hm⟩ := hX 0
    obtain ⟨h1, h2, h3⟩ := (hmode _ _).1 hm
    rcases h1 with h1 | h1
    · have : ((u / 4 : ℝ) : ℂ) = nu := by
        refine mul_right_cancel₀ (mul_ne_zero hu0 h1) ?_
        rw [← h2]; push_cast; ring
      have : u / 4 = nu := by exact_mod_cast this
      linarith
    · have : ((u / 2 : ℝ) : ℂ) = nu := by
        refine mul_right_cancel₀ (mul_ne_zero hu0 h1) ?_
        rw [← h3]; push_cast; ring
      have : u / 2 = nu := by exact_mod_cast this
      linarith

/-- Non-vacuity of `C112_magnetic` (so of `C112_mu_in_objects` and `C112_derivative`): the same cell filled with permeability `s`. -/
example : (∀ s > 0, BandIs (scaleMu exP (fun _ => True) s).data 1 (1 / (4 * s))) ∧
    HasDerivAt (fun s => Real.sqrt (1 / (4 * s))) (-(1 / 2 / 2) * integral 1 1 (fun r =>
      if True then densityOf exP.data 'b' (getB exP.data 1 (fun a => if a = 0 then 1 else 0) 0 1 0) r else 0)) 1 := by
  have hb : ∀ s > 0, BandIs (scaleMu exP (fun _ => True) s).data 1 (1 / (4 * s)) := by
    intro s hs
    have h := exP_mu_band (1 / s) (one_div_pos.2 hs) (scaleMu exP (fun _ => True) s) (by
      unfold scaleMu
      congr 2
      funext r
      simp [times, invMu, exP])
    rwa [show 1 / s / 4 = 1 / (4 * s) by field_simp] at h
  have hp : ∀ r < 1, Tensor.Spec.PosDef (invMu exP r) := by
    intro r _
    refine (posDef_iff _).2 ?_
    have e : Tensor.Spec.toMatrix (invMu exP r) = 1 := by
      ext i j
      fin_cases i <;> fin_cases j <;> simp [Tensor.Spec.toMatrix, invMu, exP]
    rw [e]
    exact Matrix.PosDef.one
  have q : Real.sqrt (1 / (4 * 1)) = 1 / 2 := by
    rw [show (1 / (4 * 1) : ℝ) = (1 / 2) ^ 2 by norm_num, Real.sqrt_sq (by norm_num)]
  refine ⟨hb, ?_⟩
  have h := C112_magnetic exP Nat.one_pos hp (fun _ => True) (fun s => 1 / (4 * s)) 1 hb (by norm_num; simpa using exP_simple) (by norm_num) 1
    (fun a => if a = 0 then 1 else 0) 0 0 1 one_pos (by norm_num; simpa using exP_eigen)
  rw [q] at h
  exact h

end Mpb.Perturb

import Verif.Maxwell.OperatorLemmas
import Verif.Maxwell.Props
import Mathlib.Analysis.Complex.Exponential
import Mathlib.Analysis.SpecialFunctions.Complex.Circle

/-! # Property C04: the Maxwell operator is Hermitian and positive semidefinite -/

namespace Mpb.Maxwell
open Spec

namespace Spec

/-- The position-space field `W [ (k+G) × H_G ]` of band amplitudes `x` (proportional to D). -/
noncomputable def curlField (d : OpData) (K : ℕ → V3 ℝ) (x : ℕ → ℂ × ℂ) : ℕ → V3 ℂ :=
  transform d.Wf d.N (fun G => V3.cross (toC (K G)) (cart (d.kpg G) (x G)))

/-- The position-space field `W [ H_G ]`. -/
noncomputable def plainField (d : OpData) (x : ℕ → ℂ × ℂ) : ℕ → V3 ℂ :=
  transform d.Wf d.N (fun G => cart (d.kpg G) (x G))

/-- `⟨a, M b⟩ / N` over the grid. -/
noncomputable def gridForm (N : ℕ) (M : ℕ → HMat) (a b : ℕ → V3 ℂ) : ℂ :=
  (1 / (N : ℂ)) * ∑ r ∈ Finset.range N, herm (a r) ((M r).mulVec (b r))

/-- The tensor is positive semidefinite: `v* M v` has non-negative real part for every vector. -/
def PSD (M : HMat) : Prop := ∀ v : V3 ℂ, 0 ≤ (herm v (M.mulVec v)).re

/-- The transforms of the two directions are adjoint (FFTW: `exp(∓2πi …)`). -/
def AdjointTransforms (d : OpData) : Prop := ∀ G < d.N, ∀ r < d.N, d.Wb G r = (starRingEnd ℂ) (d.Wf r G)

end Spec

/-! ### Lemmas on forms -/

theorem herm_mulVec_symm (M : HMat) (a b : V3 ℂ) : herm a (M.mulVec b) = (starRingEnd ℂ) (herm b (M.mulVec a)) := by
  apply Complex.ext <;> simp [herm, HMat.mulVec] <;> ring

theorem gridForm_symm (N : ℕ) (M : ℕ → HMat) (a b : ℕ → V3 ℂ) : gridForm N M a b = (starRingEnd ℂ) (gridForm N M b a) := by
  unfold gridForm
  rw [map_mul, map_sum, map_div₀, map_one, Complex.conj_natCast]
  congr 1
  exact Finset.sum_congr rfl (fun r _ => herm_mulVec_symm _ _ _)

theorem gridForm_nonneg (N : ℕ) (M : ℕ → HMat) (hM : ∀ r < N, PSD (M r)) (a : ℕ → V3 ℂ) : 0 ≤ (gridForm N M a a).re := by
  unfold gridForm
  have : (1 / (N : ℂ)) = ((1 / (N : ℝ) : ℝ) : ℂ) := by push_cast; rfl
  rw [this, Complex.re_ofReal_mul, Complex.re_sum]
  refine mul_nonneg (by positivity) (Finset.sum_nonneg (fun r hr => hM r (Finset.mem_range.1 hr) _))

/-- Moving the transform to the other side of the product. -/
theorem herm_transform {d : OpData} (hW : AdjointTransforms d) (u : ℕ → V3 ℂ) (w : ℕ → V3 ℂ) :
    ∑ G ∈ Finset.range d.N, herm (u G) (transform d.Wb d.N w G) = ∑ r ∈ Finset.range d.N, herm (transform d.Wf d.N u r) (w r) := by
  have key : ∀ f : V3 ℂ → ℂ, ∑ G ∈ Finset.range d.N, (starRingEnd ℂ) (f (u G)) * ∑ r ∈ Finset.range d.N, d.Wb G r * f (w r) =
      ∑ r ∈ Finset.range d.N, (starRingEnd ℂ) (∑ G ∈ Finset.range d.N, d.Wf r G * f (u G)) * f (w r) := by
    intro f
    simp only [map_sum, map_mul, Finset.mul_sum, Finset.sum_mul]
    rw [Finset.sum_comm]
    refine Finset.sum_congr rfl (fun r hr => Finset.sum_congr rfl (fun G hG => ?_))
    rw [hW G (Finset.mem_range.1 hG) r (Finset.mem_range.1 hr)]; ring
  simp only [herm, transform, Finset.sum_add_distrib]
  rw [key V3.x, key V3.y, key V3.z]

theorem inner_curl {d : OpData} (hW : AdjointTransforms d) {K : ℕ → V3 ℝ} (hK : ∀ G < d.N, IsBasis (K G) (d.kpg G)) (M : ℕ → HMat)
    (x y : ℕ → ℂ × ℂ) :
    inner d.N x (colOp crossT2c crossC2t d M (-1 / (d.N : ℝ)) y) = gridForm d.N M (curlField d K x) (curlField d K y) := by
  have hc : ∀ z : ℕ → ℂ × ℂ, transform d.Wf d.N (fun G => crossT2c (d.kpg G) (z G).1 (z G).2) = curlField d K z := by
    intro z
    funext r
    have : ∀ f : V3 ℂ → ℂ, ∑ j ∈ Finset.range d.N, d.Wf r j * f (crossT2c (d.kpg j) (z j).1 (z j).2) =
        ∑ j ∈ Finset.range d.N, d.Wf r j * f (V3.cross (toC (K j)) (cart (d.kpg j) (z j))) := fun f =>
      Finset.sum_congr rfl (fun j hj => by rw [C02_curl_t2c (K j) (d.kpg j) (hK j (Finset.mem_range.1 hj))])
    unfold curlField transform
    ext
    · exact this V3.x
    · exact this V3.y
    · exact this V3.z
  unfold gridForm
  rw [← hc x, ← hc y, ← herm_transform hW, Finset.mul_sum]
  unfold Spec.inner
  refine Finset.sum_congr rfl (fun G _ => ?_)
  have := C02_adjoint (d.kpg G) (x G) (transform d.Wb d.N (fun r => (M r).mulVec (transform d.Wf d.N
    (fun G => crossT2c (d.kpg G) (y G).1 (y G).2) r)) G) (-1 / (d.N : ℝ))
  have h2 : hermT (x G) (colOp crossT2c crossC2t d M (-1 / (d.N : ℝ)) y G) = -(-hermT (x G) (colOp crossT2c crossC2t d M (-1 / (d.N : ℝ)) y G)) := by
    ring
  rw [h2]
  unfold colOp
  rw [← this]
  push_cast
  ring

theorem inner_plain {d : OpData} (hW : AdjointTransforms d) (M : ℕ → HMat) (x y : ℕ → ℂ × ℂ) :
    inner d.N x (colOp t2c c2t d M (1 / (d.N : ℝ)) y) = gridForm d.N M (plainField d x) (plainField d y) := by
  have hc : ∀ z : ℕ → ℂ × ℂ, transform d.Wf d.N (fun G => t2c (d.kpg G) (z G).1 (z G).2) = plainField d z := by
    intro z
    simp only [C02_t2c]
    rfl
  unfold gridForm
  rw [← hc x, ← hc y, ← herm_transform hW, Finset.mul_sum]
  unfold Spec.inner
  refine Finset.sum_congr rfl (fun G _ => ?_)
  have := C02_project_adjoint (d.kpg G) (x G) (transform d.Wb d.N (fun r => (M r).mulVec (transform d.Wf d.N
    (fun G => t2c (d.kpg G) (y G).1 (y G).2) r)) G) (1 / (d.N : ℝ))
  unfold colOp
  rw [← this]
  push_cast
  ring

theorem inner_symm (N : ℕ) (x y : ℕ → ℂ × ℂ) : inner N x y = (starRingEnd ℂ) (inner N y x) := by
  unfold Spec.inner
  rw [map_sum]
  refine Finset.sum_congr rfl (fun G _ => ?_)
  unfold hermT
  simp only [map_add, map_mul, Complex.conj_conj]
  ring

/-! ### What the operator computes -/

/-- The single-band operator without permeability. -/
noncomputable def bandOp (d : OpData) (x : ℕ → ℂ × ℂ) : ℕ → ℂ × ℂ := colOp crossT2c crossC2t d d.epsInv (-1 / (d.N : ℝ)) x

/-- The single-band inverse-permeability operator. -/
noncomputable def bandMu (d : OpData) (mu : ℕ → HMat) (x : ℕ → ℂ × ℂ) : ℕ → ℂ × ℂ := colOp t2c c2t d mu (1 / (d.N : ℝ)) x

/-- The single-band operator with optional permeability. -/
noncomputable def bandMaxwell (d : OpData) (x : ℕ → ℂ × ℂ) : ℕ → ℂ × ℂ :=
  match d.muInv with
  | none => bandOp d x
  | some mu => bandMu d mu (bandOp d (bandMu d mu x))

/-- The single-band inverse-permeability operator, the identity without permeability. -/
noncomputable def bandMuinv (d : OpData) (x : ℕ → ℂ × ℂ) : ℕ → ℂ × ℂ :=
  match d.muInv with
  | none => x
  | some mu => bandMu d mu x

theorem operatorStep_apply (d : OpData) (p : ℕ) (Xin buf X : ℕ → ℂ) (ch : ℕ × ℕ) (hch : ch.1 + ch.2 ≤ p) :
    (∀ G < d.N, ∀ b < ch.2, band p (operatorStep d p Xin buf X ch) (ch.1 + b) G = bandMaxwell d (band p Xin (ch.1 + b)) G) ∧
    (∀ a, (∀ G < d.N, ∀ b < ch.2, ∀ c < 2, a ≠ (G * 2 + c) * p + (ch.1 + b)) → operatorStep d p Xin buf X ch a = X a) := by
  unfold operatorStep bandMaxwell
  cases hmu : d.muInv with
  | none => exact chain_apply crossT2c crossC2t d d.epsInv (-1 / (d.N : ℝ)) Xin buf X hch
  | some mu =>
    dsimp only
    set X1 := HFromBmu d mu p Xin X buf ch.1 ch.2 with hX1
    set X2 := HFromE d p X1 (eFromD d.N ch.2 d.epsInv (dFromH d p X1 buf ch.1 ch.2)) ch.1 ch.2 (-1 / (d.N : ℝ)) with hX2
    have s1 := chain_apply t2c c2t d mu (1 / (d.N : ℝ)) Xin buf X hch
    have s2 := chain_apply crossT2c crossC2t d d.epsInv (-1 / (d.N : ℝ)) X1 buf X1 hch
    have s3 := chain_apply t2c c2t d mu (1 / (d.N : ℝ)) X2 buf X2 hch
    refine ⟨fun G hG b hb => (s3.1 G hG b hb).trans ?_, fun a ha => ((s3.2 a ha).trans (s2.2 a ha)).trans (s1.2 a ha)⟩
    refine colOp_congr _ _ _ _ _ (fun G' hG' => (s2.1 G' hG' b hb).trans ?_) G
    exact colOp_congr _ _ _ _ _ (fun G'' hG'' => s1.1 G'' hG'' b hb) G'

/-- C04 (action on memory).  For every number of bands `p`, every FFT batch size `num_fft_bands ≥ 1`, every old content of the
FFT buffer and of the output, `maxwell_operator` terminates, each output band is the single-band operator applied to that input
band alone, and nothing beyond the `N*2*p` scalars of the output is written. -/
theorem C04_bands (d : OpData) (p : ℕ) (hn : 0 < d.nfb) (bufs : ℕ → ℕ → ℂ) (Xin Xout : ℕ → ℂ) :
    ∃ R, maxwellOperator d p bufs Xin Xout = some R ∧ (∀ b < p, ∀ G < d.N, band p R b G = bandMaxwell d (band p Xin b) G) ∧
      (∀ a, d.N * 2 * p ≤ a → R a = Xout a) := by
  unfold maxwellOperator
  rw [if_neg (by omega)]
  exact ⟨_, rfl, chunks_apply hn (fun X ch => operatorStep d p Xin (bufs ch.1) X ch) (fun b => bandMaxwell d (band p Xin b))
    (fun X ch hch => operatorStep_apply d p Xin (bufs ch.1) X ch hch) Xout⟩

theorem copySlice_apply {N p : ℕ} (Xin X : ℕ → ℂ) (ch : ℕ × ℕ) (hch : ch.1 + ch.2 ≤ p) :
    (∀ G < N, ∀ b < ch.2, band p (copySlice (N * 2) p Xin X ch.1 ch.2) (ch.1 + b) G = band p Xin (ch.1 + b) G) ∧
    (∀ a, (∀ G < N, ∀ b < ch.2, ∀ c < 2, a ≠ (G * 2 + c) * p + (ch.1 + b)) → copySlice (N * 2) p Xin X ch.1 ch.2 a = X a) := by
  constructor
  · intro G hG b hb
    have key : ∀ i < N * 2, copySlice (N * 2) p Xin X ch.1 ch.2 (i * p + (ch.1 + b)) = Xin (i * p + (ch.1 + b)) := by
      intro i hi
      have e : i * p + (ch.1 + b) = i * p + b + ch.1 := by ring
      rw [e]
      exact writes_map_apply (addr := fun t : ℕ × ℕ => t.1 * p + t.2 + ch.1) (val := fun t => Xin (t.1 * p + t.2 + ch.1))
        (i := (i, b)) (mem_loop2.2 ⟨hi, hb⟩) (fun j _ e => by simp only at e ⊢; rw [e])
    exact Prod.ext (key _ (by omega)) (key _ (by omega))
  · intro a ha
    refine writes_map_other (addr := fun t : ℕ × ℕ => t.1 * p + t.2 + ch.1) (val := fun t => Xin (t.1 * p + t.2 + ch.1)) ?_
    rintro ⟨i, b⟩ hm e
    obtain ⟨hi, hb⟩ := mem_loop2.1 hm
    refine ha (i / 2) (by simp only at hi; omega) b hb (i % 2) (by omega) ?_
    have : i / 2 * 2 + i % 2 = i := by omega
    rw [this, ← e]; simp only; ring

/-- C04 (inverse permeability operator).  Same statement for `maxwell_muinv_operator`, which is the identity when there is no
permeability. -/
theorem C04_muinv_bands (d : OpData) (p : ℕ) (hn : 0 < d.nfb) (bufs : ℕ → ℕ → ℂ) (Xin Xout : ℕ → ℂ) :
    ∃ R, muinvOperator d p bufs Xin Xout = some R ∧ (∀ b < p, ∀ G < d.N, band p R b G = bandMuinv d (band p Xin b) G) ∧
      (∀ a, d.N * 2 * p ≤ a → R a = Xout a) := by
  unfold muinvOperator
  rw [if_neg (by omega)]
  refine ⟨_, rfl, chunks_apply hn _ (fun b => bandMuinv d (band p Xin b)) (fun X ch hch => ?_) Xout⟩
  unfold bandMuinv
  cases hmu : d.muInv with
  | none => exact copySlice_apply Xin X ch hch
  | some mu => exact chain_apply t2c c2t d mu (1 / (d.N : ℝ)) Xin (bufs ch.1) X hch

/-- C04 (group-velocity operator).  Same statement for `maxwell_ucross_op`. -/
theorem C04_ucross_bands (d : OpData) (u : V3 ℝ) (p : ℕ) (hn : 0 < d.nfb) (bufs : ℕ → ℕ → ℂ) (Xin Xout : ℕ → ℂ) :
    ∃ R, ucrossOperator d u p bufs Xin Xout = some R ∧
      (∀ b < p, ∀ G < d.N, band p R b G = colOp (ucrossT2c u) crossC2t d d.epsInv (-1 / (d.N : ℝ)) (band p Xin b) G) ∧
      (∀ a, d.N * 2 * p ≤ a → R a = Xout a) := by
  unfold ucrossOperator
  rw [if_neg (by omega)]
  exact ⟨_, rfl, chunks_apply hn _ (fun b => colOp (ucrossT2c u) crossC2t d d.epsInv (-1 / (d.N : ℝ)) (band p Xin b))
    (fun X ch hch => chain_apply (ucrossT2c u) crossC2t d d.epsInv (-1 / (d.N : ℝ)) Xin (bufs ch.1) X hch) Xout⟩

/-! ### Hermiticity and positivity -/

theorem inner_bandMaxwell {d : OpData} (hW : AdjointTransforms d) {K : ℕ → V3 ℝ} (hK : ∀ G < d.N, IsBasis (K G) (d.kpg G))
    (x y : ℕ → ℂ × ℂ) :
    inner d.N x (bandMaxwell d y) = gridForm d.N d.epsInv (curlField d K (bandMuinv d x)) (curlField d K (bandMuinv d y)) := by
  unfold bandMaxwell bandMuinv
  cases hmu : d.muInv with
  | none => exact inner_curl hW hK _ _ _
  | some mu =>
    dsimp only
    have self : ∀ u v, inner d.N u (bandMu d mu v) = inner d.N (bandMu d mu u) v := by
      intro u v
      rw [inner_symm d.N (bandMu d mu u) v]
      unfold bandMu
      rw [inner_plain hW, inner_plain hW, gridForm_symm]
    rw [self]
    exact inner_curl hW hK _ _ _

/-- C04.  Let the stored basis be right for the wavevectors `K` (C01), and let the two FFT directions be adjoint.  Then for
all band data and any two bands `a`, `b` the result `R` of `maxwell_operator` satisfies

* `⟨x_a | A x_b⟩ = (1/N) Σ_r (curl x_a)(r)* · ε⁻¹(r) · (curl x_b)(r)`, the curl being the position-space field of
  `(k+G) × H` (of `μ⁻¹` applied to the band when there is a permeability);
* it is Hermitian: `⟨x_a | A x_b⟩ = conj ⟨x_b | A x_a⟩`;
* `⟨x_a | A x_a⟩` is real, and non-negative when every inverse dielectric tensor is positive semidefinite. -/
theorem C04_hermitian_psd (d : OpData) (p : ℕ) (hn : 0 < d.nfb) (hW : AdjointTransforms d) (K : ℕ → V3 ℝ)
    (hK : ∀ G < d.N, IsBasis (K G) (d.kpg G)) (bufs : ℕ → ℕ → ℂ) (Xin Xout : ℕ → ℂ) (a b : ℕ) (ha : a < p) (hb : b < p) :
    ∃ R, maxwellOperator d p bufs Xin Xout = some R ∧
      inner d.N (band p Xin a) (band p R b) = gridForm d.N d.epsInv (curlField d K (bandMuinv d (band p Xin a)))
        (curlField d K (bandMuinv d (band p Xin b))) ∧
      inner d.N (band p Xin a) (band p R b) = (starRingEnd ℂ) (inner d.N (band p Xin b) (band p R a)) ∧
      (inner d.N (band p Xin a) (band p R a)).im = 0 ∧
      ((∀ r < d.N, PSD (d.epsInv r)) → 0 ≤ (inner d.N (band p Xin a) (band p R a)).re) := by
  obtain ⟨R, hR, hA, -⟩ := C04_bands d p hn bufs Xin Xout
  have hin : ∀ x, ∀ b < p, inner d.N x (band p R b) = inner d.N x (bandMaxwell d (band p Xin b)) := by
    intro x b hb
    unfold Spec.inner
    exact Finset.sum_congr rfl (fun G hG => by rw [hA b hb G (Finset.mem_range.1 hG)])
  have hs : inner d.N (band p Xin a) (band p R a) = (starRingEnd ℂ) (inner d.N (band p Xin a) (band p R a)) := by
    rw [hin _ a ha, inner_bandMaxwell hW hK, ← gridForm_symm]
  refine ⟨R, hR, ?_, ?_, ?_, fun hP => ?_⟩
  · rw [hin _ b hb, inner_bandMaxwell hW hK]
  · rw [hin _ b hb, hin _ a ha, inner_bandMaxwell hW hK, inner_bandMaxwell hW hK, gridForm_symm]
  · exact Complex.conj_eq_iff_im.1 hs.symm
  · rw [hin _ a ha, inner_bandMaxwell hW hK]
    exact gridForm_nonneg _ _ hP _

/-- C04 (eigenvalues).  If a band is an eigenvector, `A x = ω² x` with `x ≠ 0`, the eigenvalue `ω²` is real, and non-negative
for positive semidefinite tensors. -/
theorem C04_eigenvalue (d : OpData) (p : ℕ) (hn : 0 < d.nfb) (hW : AdjointTransforms d) (K : ℕ → V3 ℝ)
    (hK : ∀ G < d.N, IsBasis (K G) (d.kpg G)) (bufs : ℕ → ℕ → ℂ) (Xin Xout R : ℕ → ℂ) (a : ℕ) (ha : a < p)
    (hR : maxwellOperator d p bufs Xin Xout = some R) (lam : ℂ)
    (heig : ∀ G < d.N, band p R a G = (lam * (band p Xin a G).1, lam * (band p Xin a G).2))
    (hx : ∃ G < d.N, band p Xin a G ≠ (0, 0)) :
    lam.im = 0 ∧ ((∀ r < d.N, PSD (d.epsInv r)) → 0 ≤ lam.re) := by
  obtain ⟨R', hR', -, -, him, hre⟩ := C04_hermitian_psd d p hn hW K hK bufs Xin Xout a a ha ha
  obtain rfl : R' = R := Option.some.inj (hR'.symm.trans hR)
  set nrm : ℝ := ∑ G ∈ Finset.range d.N, (Complex.normSq (band p Xin a G).1 + Complex.normSq (band p Xin a G).2) with hnrm
  have hval : inner d.N (band p Xin a) (band p R' a) = lam * (nrm : ℂ) := by
    unfold Spec.inner
    rw [hnrm]
    push_cast
    rw [Finset.mul_sum]
    refine Finset.sum_congr rfl (fun G hG => ?_)
    rw [heig G (Finset.mem_range.1 hG)]
    unfold hermT
    simp only [← Complex.mul_conj]
    ring
  have hpos : 0 < nrm := by
    obtain ⟨G, hG, hne⟩ := hx
    apply Finset.sum_pos' (fun G _ => add_nonneg (Complex.normSq_nonneg _) (Complex.normSq_nonneg _))
    refine ⟨G, Finset.mem_range.2 hG, ?_⟩
    rcases Classical.em ((band p Xin a G).1 = 0) with h0 | h0
    · have h1 : (band p Xin a G).2 ≠ 0 := fun h1 => hne (Prod.ext h0 h1)
      have := Complex.normSq_pos.2 h1
      have := Complex.normSq_nonneg (band p Xin a G).1
      linarith
    · have := Complex.normSq_pos.2 h0
      have := Complex.normSq_nonneg (band p Xin a G).2
      linarith
  rw [hval, Complex.im_mul_ofReal] at him
  rw [hval, Complex.re_mul_ofReal] at hre
  refine ⟨(mul_eq_zero.1 him).resolve_right hpos.ne', fun hP => ?_⟩
  have := hre hP
  by_contra hc
  push Not at hc
  nlinarith [mul_neg_of_neg_of_pos hc hpos]

theorem colOp_linear (ex : KData → ℂ → ℂ → V3 ℂ) (co : KData → V3 ℂ → ℝ → ℂ × ℂ) (d : OpData) (M : ℕ → HMat) (sc : ℝ) (s t : ℂ)
    (hex : ∀ k x y x' y', ex k (s * x + t * x') (s * y + t * y') = V3.smul s (ex k x y) + V3.smul t (ex k x' y'))
    (hco : ∀ k a b, co k (V3.smul s a + V3.smul t b) sc = (s * (co k a sc).1 + t * (co k b sc).1, s * (co k a sc).2 + t * (co k b sc).2))
    (x y : ℕ → ℂ × ℂ) (G : ℕ) :
    colOp ex co d M sc (fun G => (s * (x G).1 + t * (y G).1, s * (x G).2 + t * (y G).2)) G =
      (s * (colOp ex co d M sc x G).1 + t * (colOp ex co d M sc y G).1, s * (colOp ex co d M sc x G).2 + t * (colOp ex co d M sc y G).2) := by
  have tr : ∀ (W : ℕ → ℕ → ℂ) (u v w : ℕ → V3 ℂ), (∀ j, w j = V3.smul s (u j) + V3.smul t (v j)) → ∀ r,
      transform W d.N w r = V3.smul s (transform W d.N u r) + V3.smul t (transform W d.N v r) := by
    intro W u v w hw r
    have : ∀ f : V3 ℂ → ℂ, (∀ a b, f (V3.smul s a + V3.smul t b) = s * f a + t * f b) →
        ∑ j ∈ Finset.range d.N, W r j * f (w j) = s * ∑ j ∈ Finset.range d.N, W r j * f (u j) + t * ∑ j ∈ Finset.range d.N, W r j * f (v j) := by
      intro f hf
      rw [Finset.mul_sum, Finset.mul_sum, ← Finset.sum_add_distrib]
      exact Finset.sum_congr rfl (fun j _ => by rw [hw, hf]; ring)
    ext
    · exact this V3.x (fun _ _ => rfl)
    · exact this V3.y (fun _ _ => rfl)
    · exact this V3.z (fun _ _ => rfl)
  unfold colOp
  rw [tr d.Wb (fun r => (M r).mulVec (transform d.Wf d.N (fun G => ex (d.kpg G) (x G).1 (x G).2) r))
    (fun r => (M r).mulVec (transform d.Wf d.N (fun G => ex (d.kpg G) (y G).1 (y G).2) r)) _ (fun r => ?_) G]
  · exact hco _ _ _
  · rw [tr d.Wf (fun G => ex (d.kpg G) (x G).1 (x G).2) (fun G => ex (d.kpg G) (y G).1 (y G).2) _ (fun j => hex _ _ _ _ _) r]
    ext <;> apply Complex.ext <;> simp [HMat.mulVec] <;> ring

/-- C04 (linearity).  The single-band operator, with or without permeability, is linear. -/
theorem C04_linear (d : OpData) (x y : ℕ → ℂ × ℂ) (s t : ℂ) (G : ℕ) :
    bandMaxwell d (fun G => (s * (x G).1 + t * (y G).1, s * (x G).2 + t * (y G).2)) G =
      (s * (bandMaxwell d x G).1 + t * (bandMaxwell d y G).1, s * (bandMaxwell d x G).2 + t * (bandMaxwell d y G).2) := by
  have lc : ∀ x y, bandOp d (fun G => (s * (x G).1 + t * (y G).1, s * (x G).2 + t * (y G).2)) =
      fun G => (s * (bandOp d x G).1 + t * (bandOp d y G).1, s * (bandOp d x G).2 + t * (bandOp d y G).2) := fun x y => by
    funext G
    refine colOp_linear crossT2c crossC2t d _ _ s t (fun k x y x' y' => ?_) (fun k a b => ?_) x y G
    · ext <;> apply Complex.ext <;> simp [crossT2c] <;> ring
    · refine Prod.ext ?_ ?_ <;> apply Complex.ext <;> simp [crossC2t] <;> ring
  have lm : ∀ mu x y, bandMu d mu (fun G => (s * (x G).1 + t * (y G).1, s * (x G).2 + t * (y G).2)) =
      fun G => (s * (bandMu d mu x G).1 + t * (bandMu d mu y G).1, s * (bandMu d mu x G).2 + t * (bandMu d mu y G).2) := fun mu x y => by
    funext G
    refine colOp_linear t2c c2t d _ _ s t (fun k x y x' y' => ?_) (fun k a b => ?_) x y G
    · ext <;> apply Complex.ext <;> simp [t2c] <;> ring
    · refine Prod.ext ?_ ?_ <;> apply Complex.ext <;> simp [c2t] <;> ring
  unfold bandMaxwell
  cases d.muInv with
  | none => exact congrFun (lc x y) G
  | some mu => simp only [lm, lc]

/-! ### Non-vacuity: the DFT of any size satisfies the hypothesis on the transforms -/

/-- The one-dimensional DFT matrices `exp(∓2πi r G / N)` are adjoint for every `N`. -/
example (od ld nfb : ℕ) (kpg : ℕ → KData) (epsInv : ℕ → HMat) :
    AdjointTransforms ⟨od, ld, nfb, kpg, epsInv, none, fun r G => Complex.exp (-(2 * Real.pi * Complex.I * r * G / (od * ld))),
      fun G r => Complex.exp (2 * Real.pi * Complex.I * r * G / (od * ld))⟩ := by
  intro G _ r _
  simp only
  rw [← Complex.exp_conj]
  congr 1
  simp [map_ofNat]
  ring

/-- Non-vacuity: the identity tensor is positive semidefinite, and so is any non-negative diagonal one. -/
example : PSD ⟨1, 2, 0, 0, 0, 0⟩ := by
  intro v
  simp only [herm, HMat.mulVec]
  simp
  nlinarith [mul_self_nonneg v.x.re, mul_self_nonneg v.x.im, mul_self_nonneg v.y.re, mul_self_nonneg v.y.im]

end Mpb.Maxwell

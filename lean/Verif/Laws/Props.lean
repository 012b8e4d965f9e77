import Verif.Laws.Spec
import Verif.Flux.Props

/-!
# C110: the fields of a mode obey Maxwell's equations

The equations are those of a mode with time dependence `exp(-iωt)`: `∇·B = 0`, `∇·D = 0`, `∇×E = iωB`, `∇×H = -iωD`, `D = εE`, `B = μH`.
With the planewave coefficients of `Spec.curl` the common factor `i` is dropped.  The model of the fields is that of
`Verif.Field.EnergyModel` and `Verif.Flux.Model`.
-/

namespace Mpb.Laws

open Mpb.Maxwell Mpb.Maxwell.Spec Mpb.Field Mpb.Field.Spec Mpb.Flux Mpb.Flux.Spec Mpb.Laws.Spec Mpb.Velocity

/-! ### Lemmas -/

theorem transform_smul (W : ℕ → ℕ → ℂ) (N : ℕ) (s : ℂ) (F : ℕ → V3 ℂ) (G : ℕ) :
    transform W N (fun r => V3.smul s (F r)) G = V3.smul s (transform W N F G) := by
  unfold transform V3.smul
  ext
  all_goals
    simp only [Finset.mul_sum]
    refine Finset.sum_congr rfl (fun j _ => ?_)
    ring

/-- The planewave coefficients of a scaled synthesised field. -/
theorem coef_synth {d : OpData} (hI : InverseTransforms d) (F : ℕ → V3 ℂ) (s : ℂ) (a : ℕ → V3 ℂ)
    (hF : ∀ r < d.N, F r = V3.smul s (transform d.Wf d.N a r)) {G : ℕ} (hG : G < d.N) : coef d F G = V3.smul s (a G) := by
  have hN : (d.N : ℂ) ≠ 0 := by exact_mod_cast (by omega : d.N ≠ 0)
  unfold coef
  rw [transform_congr (b := fun r => V3.smul s (transform d.Wf d.N a r)) hF, transform_smul, transform_inverse hI a hG]
  ext <;> simp <;> field_simp

theorem coef_B {d : OpData} (hI : InverseTransforms d) (p : ℕ) (H buf : ℕ → ℂ) (Vol : ℝ) (b : ℕ) {G : ℕ} (hG : G < d.N) :
    coef d (at3 (getB d p H buf Vol b)) G = V3.smul ((1 / Real.sqrt Vol : ℝ) : ℂ) (cart (d.kpg G) (band p H b G)) := by
  refine coef_synth hI (at3 (getB d p H buf Vol b)) ((1 / Real.sqrt Vol : ℝ) : ℂ) (fun G => cart (d.kpg G) (band p H b G)) (fun r hr => ?_) hG
  rw [← cvec_at3, getB_vec d p H buf Vol b hr]; rfl

theorem coef_H {d : OpData} (hI : InverseTransforms d) (p : ℕ) (H W0 buf buf2 : ℕ → ℂ) (Vol : ℝ) (b : ℕ) {G : ℕ} (hG : G < d.N) :
    coef d (at3 (getH d p H W0 buf buf2 Vol b)) G = V3.smul ((1 / Real.sqrt Vol : ℝ) : ℂ) (cart (d.kpg G) (bandMuinv d (band p H b) G)) := by
  refine coef_synth hI (at3 (getH d p H W0 buf buf2 Vol b)) ((1 / Real.sqrt Vol : ℝ) : ℂ) (fun G => cart (d.kpg G) (bandMuinv d (band p H b) G))
    (fun r hr => ?_) hG
  rw [← cvec_at3, getH_vec d p H W0 buf buf2 Vol b hr]; rfl

theorem coef_D {d : OpData} (hI : InverseTransforms d) (K : ℕ → V3 ℝ) (hK : ∀ G < d.N, IsBasis (K G) (d.kpg G)) (p : ℕ)
    (H W0 buf buf2 : ℕ → ℂ) (freqs : ℕ → ℝ) (Vol : ℝ) (b : ℕ) {G : ℕ} (hG : G < d.N) :
    coef d (at3 (getD d p H W0 buf buf2 freqs Vol b)) G = V3.smul (((if freqs b ≠ 0 then -1 / freqs b else -1) / Real.sqrt Vol : ℝ) : ℂ)
      (V3.cross (toC (K G)) (cart (d.kpg G) (bandMuinv d (band p H b) G))) := by
  refine coef_synth hI (at3 (getD d p H W0 buf buf2 freqs Vol b)) _ (fun G => V3.cross (toC (K G)) (cart (d.kpg G) (bandMuinv d (band p H b) G)))
    (fun r hr => ?_) hG
  rw [← cvec_at3, getD_vec d K hK p H W0 buf buf2 freqs Vol b hr]; rfl

/-- The permeability, if there is one, is positive definite. -/
def MuPD (d : OpData) : Prop := ∀ mu, d.muInv = some mu → ∀ r < d.N, PD (mu r)

/-- The eigenvalue equation without the outer `μ⁻¹`. -/
theorem eig_bare {d : OpData} (hW : AdjointTransforms d) (hI : InverseTransforms d) {K : ℕ → V3 ℝ} (hK : ∀ G < d.N, IsBasis (K G) (d.kpg G))
    (hmu : MuPD d) {x : ℕ → ℂ × ℂ} {lam : ℝ} (hx : EigenBand d x lam) :
    ∀ G < d.N, bandOp d (bandMuinv d x) G = (lam * (x G).1, lam * (x G).2) := by
  have h := hx.eig
  unfold bandMaxwell bandMuinv at h
  unfold bandMuinv
  unfold MuPD at hmu
  cases hm : d.muInv with
  | none => rw [hm] at h; exact h
  | some mu =>
    rw [hm] at h
    exact hasDerivAt_mu_aux hW hI hK (hmu mu hm) x lam h

/-- The curl of `ε⁻¹` times the curl, in planewaves. -/
theorem curl_bandOp {d : OpData} {K : ℕ → V3 ℝ} (hK : ∀ G < d.N, IsBasis (K G) (d.kpg G)) (x : ℕ → ℂ × ℂ) {G : ℕ} (hG : G < d.N) :
    curl d K (fun r => (d.epsInv r).mulVec (curlField d K x r)) G = V3.smul (-1) (cart (d.kpg G) (bandOp d x G)) := by
  have h3 : transform d.Wf d.N (fun G => crossT2c (d.kpg G) (x G).1 (x G).2) = curlField d K x :=
    transform_congr (fun G hG => C02_curl_t2c (K G) (d.kpg G) (hK G hG) _ _)
  unfold curl coef bandOp colOp
  rw [h3, C02_curl_c2t (K G) _ (hK G hG)]
  generalize transform d.Wb d.N _ G = a
  ext <;> simp [V3.cross] <;> ring

theorem curl_smul (d : OpData) (K : ℕ → V3 ℝ) (s : ℂ) (F : ℕ → V3 ℂ) (G : ℕ) :
    curl d K (fun r => V3.smul s (F r)) G = V3.smul s (curl d K F G) := by
  unfold curl coef
  rw [transform_smul]
  ext <;> simp [V3.cross] <;> ring

theorem curl_congr {d : OpData} (K : ℕ → V3 ℝ) {F F' : ℕ → V3 ℂ} (h : ∀ r < d.N, F r = F' r) (G : ℕ) : curl d K F G = curl d K F' G := by
  unfold curl coef
  rw [transform_congr h]

/-- The curl of the E field for any stored frequency. -/
theorem curl_E {d : OpData} (hW : AdjointTransforms d) (hI : InverseTransforms d) {K : ℕ → V3 ℝ}
    (hK : ∀ G < d.N, IsBasis (K G) (d.kpg G)) (hmu : MuPD d) (p : ℕ) (H W0 buf buf2 buf3 : ℕ → ℂ) (freqs : ℕ → ℝ) (Vol : ℝ) (b : ℕ)
    {lam : ℝ} (hx : EigenBand d (band p H b) lam) (hf : freqs b ≠ 0) {G : ℕ} (hG : G < d.N) :
    curl d K (at3 (getE d p H W0 buf buf2 freqs Vol b)) G =
      V3.smul ((lam / freqs b : ℝ) : ℂ) (coef d (at3 (getB d p H buf3 Vol b)) G) := by
  have h1 : ∀ r < d.N, at3 (getE d p H W0 buf buf2 freqs Vol b) r = V3.smul ((-1 / freqs b / Real.sqrt Vol : ℝ) : ℂ)
      ((d.epsInv r).mulVec (curlField d K (bandMuinv d (band p H b)) r)) := by
    intro r hr
    rw [getE_at d p H W0 buf buf2 freqs Vol b hr, ← cvec_at3, getD_vec d K hK p H W0 buf buf2 freqs Vol b hr, if_pos hf, mulVec_smul]
  rw [curl_congr K h1, curl_smul, curl_bandOp hK _ hG, eig_bare hW hI hK hmu hx G hG, coef_B hI p H buf3 Vol b hG]
  ext <;> simp [cart] <;> ring

/-! ### The four equations -/

/-- C110 (Gauss).  The B and D fields returned for a stored band have zero divergence, planewave by planewave, whatever the amplitudes of
the band are. -/
theorem C110_gauss (d : OpData) (hI : InverseTransforms d) (K : ℕ → V3 ℝ) (hK : ∀ G < d.N, IsBasis (K G) (d.kpg G)) (p : ℕ)
    (H W0 buf buf2 buf3 : ℕ → ℂ) (freqs : ℕ → ℝ) (Vol : ℝ) (b : ℕ) (G : ℕ) (hG : G < d.N) :
    divergence d K (at3 (getB d p H buf3 Vol b)) G = 0 ∧ divergence d K (at3 (getD d p H W0 buf buf2 freqs Vol b)) G = 0 := by
  unfold divergence
  constructor
  · rw [coef_B hI p H buf3 Vol b hG]
    obtain ⟨-, -, -, -, -, hm, hn, -⟩ := hK G hG
    have hm' : (K G).x * (d.kpg G).m.x + (K G).y * (d.kpg G).m.y + (K G).z * (d.kpg G).m.z = 0 := by linarith [show (d.kpg G).m.x * (K G).x + (d.kpg G).m.y * (K G).y + (d.kpg G).m.z * (K G).z = 0 from hm]
    have hn' : (K G).x * (d.kpg G).n.x + (K G).y * (d.kpg G).n.y + (K G).z * (d.kpg G).n.z = 0 := by linarith [show (d.kpg G).n.x * (K G).x + (d.kpg G).n.y * (K G).y + (d.kpg G).n.z * (K G).z = 0 from hn]
    have hm2 := congrArg (fun t : ℝ => (t : ℂ)) hm'
    have hn2 := congrArg (fun t : ℝ => (t : ℂ)) hn'
    push_cast at hm2 hn2
    simp only [cart, V3.smul_x, V3.smul_y, V3.smul_z, V3.add_x, V3.add_y, V3.add_z, toC, V3.map]
    linear_combination ((1 / Real.sqrt Vol : ℝ) : ℂ) * (band p H b G).1 * hm2 + ((1 / Real.sqrt Vol : ℝ) : ℂ) * (band p H b G).2 * hn2
  · rw [coef_D hI K hK p H W0 buf buf2 freqs Vol b hG]
    simp only [V3.smul_x, V3.smul_y, V3.smul_z, V3.cross, toC, V3.map]
    ring

/-- C110 (Ampère).  For a band of non-zero frequency: the curl of the H field is `-iω` times the D field, whatever the amplitudes of the
band are. -/
theorem C110_ampere (d : OpData) (hI : InverseTransforms d) (K : ℕ → V3 ℝ) (hK : ∀ G < d.N, IsBasis (K G) (d.kpg G)) (p : ℕ)
    (H W0 buf buf2 W0' buf' buf2' : ℕ → ℂ) (freqs : ℕ → ℝ) (Vol : ℝ) (b : ℕ) (hf : freqs b ≠ 0) (G : ℕ) (hG : G < d.N) :
    curl d K (at3 (getH d p H W0' buf' buf2' Vol b)) G =
      V3.smul ((-freqs b : ℝ) : ℂ) (coef d (at3 (getD d p H W0 buf buf2 freqs Vol b)) G) := by
  unfold curl
  have hf' : (freqs b : ℂ) ≠ 0 := by exact_mod_cast hf
  rw [coef_H hI p H W0' buf' buf2' Vol b hG, coef_D hI K hK p H W0 buf buf2 freqs Vol b hG, if_pos hf]
  generalize cart (d.kpg G) _ = a
  ext <;> simp [V3.cross] <;> field_simp

/-- C110 (Faraday).  For a normalised eigenvector of eigenvalue `ω² > 0`: the curl of the E field is `iω` times the B field, whatever the
dielectric tensors are and for every positive definite permeability. -/
theorem C110_faraday (d : OpData) (hW : AdjointTransforms d) (hI : InverseTransforms d) (K : ℕ → V3 ℝ)
    (hK : ∀ G < d.N, IsBasis (K G) (d.kpg G)) (hmu : MuPD d) (p : ℕ) (H W0 buf buf2 buf3 : ℕ → ℂ) (freqs : ℕ → ℝ) (Vol : ℝ) (b : ℕ)
    (lam : ℝ) (hl : 0 < lam) (hx : EigenBand d (band p H b) lam) (hf : freqs b = storedFreq false lam) (G : ℕ) (hG : G < d.N) :
    curl d K (at3 (getE d p H W0 buf buf2 freqs Vol b)) G =
      V3.smul (freqs b : ℂ) (coef d (at3 (getB d p H buf3 Vol b)) G) := by
  have hs : freqs b = Real.sqrt lam := by rw [hf]; rfl
  have hne : freqs b ≠ 0 := by rw [hs]; exact (Real.sqrt_pos.2 hl).ne'
  rw [curl_E hW hI hK hmu p H W0 buf buf2 buf3 freqs Vol b hx hne hG]
  congr 2
  rw [hs]
  exact Real.div_sqrt

/-! ### The material equations -/

/-- C110 (materials).  At every grid point `D = ε E`, for the tensor `ε` whose inverse is stored there; without a permeability `B = H`. -/
theorem C110_materials (d : OpData) (p : ℕ) (H W0 buf buf2 W0' buf' buf2' buf3 : ℕ → ℂ) (freqs : ℕ → ℝ) (Vol : ℝ) (b : ℕ) (r : ℕ) (hr : r < d.N) :
    (∀ eps : V3 ℂ → V3 ℂ, (∀ v, eps ((d.epsInv r).mulVec v) = v) →
      at3 (getD d p H W0 buf buf2 freqs Vol b) r = eps (at3 (getE d p H W0 buf buf2 freqs Vol b) r)) ∧
    (d.muInv = none → at3 (getB d p H buf3 Vol b) r = at3 (getH d p H W0' buf' buf2' Vol b) r) := by
  refine ⟨fun eps he => ?_, fun hm => ?_⟩
  · rw [getE_at d p H W0 buf buf2 freqs Vol b hr, he]
  · rw [← cvec_at3, ← cvec_at3, getB_vec d p H buf3 Vol b hr, getH_vec d p H W0' buf' buf2' Vol b hr]
    unfold bandMuinv
    rw [hm]

/-- C110 (permeability).  With a permeability the H field returned has the same curl as `μ⁻¹ B`: the two differ by a field without curl. -/
theorem C110_h_partial (d : OpData) (hI : InverseTransforms d) (K : ℕ → V3 ℝ) (hK : ∀ G < d.N, IsBasis (K G) (d.kpg G)) (p : ℕ)
    (H W0 buf buf2 buf3 : ℕ → ℂ) (Vol : ℝ) (b : ℕ) (mu : ℕ → HMat) (hm : d.muInv = some mu) (G : ℕ) (hG : G < d.N) :
    curl d K (at3 (getH d p H W0 buf buf2 Vol b)) G =
      curl d K (fun r => (mu r).mulVec (at3 (getB d p H buf3 Vol b) r)) G := by
  have h1 : ∀ r < d.N, (mu r).mulVec (at3 (getB d p H buf3 Vol b) r) = V3.smul ((1 / Real.sqrt Vol : ℝ) : ℂ)
      ((mu r).mulVec (plainField d (band p H b) r)) := by
    intro r hr
    rw [← cvec_at3, getB_vec d p H buf3 Vol b hr, mulVec_smul]
  rw [curl_congr K h1, curl_smul]
  unfold curl
  rw [coef_H hI p H W0 buf buf2 Vol b hG]
  unfold bandMuinv
  rw [hm]
  simp only
  rw [bandMu_eq]
  have h2 := cross_c2t (K G) _ (hK G hG) (muField d mu (fun G => cart (d.kpg G) (band p H b G)) G) 1
  have h3 : muField d mu (fun G => cart (d.kpg G) (band p H b G)) G = coef d (fun r => (mu r).mulVec (plainField d (band p H b) r)) G := rfl
  rw [h3] at h2 ⊢
  generalize coef d (fun r => (mu r).mulVec (plainField d (band p H b) r)) G = a at h2 ⊢
  generalize cart (d.kpg G) (c2t (d.kpg G) a 1) = c at h2 ⊢
  have e1 := congrArg V3.x h2
  have e2 := congrArg V3.y h2
  have e3 := congrArg V3.z h2
  simp [V3.cross, toC] at e1 e2 e3
  ext
  · simp [V3.cross, toC]; linear_combination ((Real.sqrt Vol : ℂ)⁻¹) * e1
  · simp [V3.cross, toC]; linear_combination ((Real.sqrt Vol : ℂ)⁻¹) * e2
  · simp [V3.cross, toC]; linear_combination ((Real.sqrt Vol : ℂ)⁻¹) * e3

/-! ### Different bands are orthogonal -/

/-- C110 (orthogonality).  If two stored bands are eigenvectors of positive eigenvalues and orthogonal in the product of the eigensolver,
their fields are orthogonal: `∫ E₁* · D₂ = 0` and `∫ B₁* · H₂ = 0`. -/
theorem C110_orthogonal (d : OpData) (hN : 0 < d.N) (hW : AdjointTransforms d) (hU : Parseval d) (K : ℕ → V3 ℝ)
    (hK : ∀ G < d.N, IsBasis (K G) (d.kpg G)) (p : ℕ) (H W0 buf buf2 W0' buf' buf2' W0'' buf'' buf2'' buf3 : ℕ → ℂ) (freqs : ℕ → ℝ)
    (Vol : ℝ) (b1 b2 : ℕ) (lam1 lam2 : ℝ) (hx1 : EigenBand d (band p H b1) lam1) (hx2 : EigenBand d (band p H b2) lam2)
    (ho : inner d.N (band p H b1) (bandMuinv d (band p H b2)) = 0) :
    overlap d.N Vol (at3 (getE d p H W0 buf buf2 freqs Vol b1)) (at3 (getD d p H W0' buf' buf2' freqs Vol b2)) = 0 ∧
    overlap d.N Vol (at3 (getB d p H buf3 Vol b1)) (at3 (getH d p H W0'' buf'' buf2'' Vol b2)) = 0 := by
  have hA : gridForm d.N d.epsInv (curlField d K (bandMuinv d (band p H b1))) (curlField d K (bandMuinv d (band p H b2))) = 0 := by
    rw [← inner_bandMaxwell hW hK]
    have : inner d.N (band p H b1) (bandMaxwell d (band p H b2)) = lam2 * inner d.N (band p H b1) (bandMuinv d (band p H b2)) := by
      unfold Maxwell.Spec.inner
      rw [Finset.mul_sum]
      refine Finset.sum_congr rfl (fun G hG => ?_)
      rw [hx2.eig G (Finset.mem_range.1 hG)]
      unfold hermT
      ring
    rw [this, ho, mul_zero]
  have hN' : (1 / (d.N : ℂ)) ≠ 0 := one_div_ne_zero (by exact_mod_cast hN.ne')
  constructor
  · unfold gridForm at hA
    have hA' := (mul_eq_zero.1 hA).resolve_left hN'
    unfold overlap
    have e : ∀ r ∈ Finset.range d.N, herm (at3 (getE d p H W0 buf buf2 freqs Vol b1) r) (at3 (getD d p H W0' buf' buf2' freqs Vol b2) r) =
        ((((if freqs b1 ≠ 0 then -1 / freqs b1 else -1) / Real.sqrt Vol) * ((if freqs b2 ≠ 0 then -1 / freqs b2 else -1) / Real.sqrt Vol) : ℝ) : ℂ) *
          herm (curlField d K (bandMuinv d (band p H b1)) r) ((d.epsInv r).mulVec (curlField d K (bandMuinv d (band p H b2)) r)) := by
      intro r hr
      have hr := Finset.mem_range.1 hr
      rw [getE_at d p H W0 buf buf2 freqs Vol b1 hr, ← cvec_at3, ← cvec_at3, getD_vec d K hK p H W0 buf buf2 freqs Vol b1 hr,
        getD_vec d K hK p H W0' buf' buf2' freqs Vol b2 hr]
      generalize curlField d K (bandMuinv d (band p H b1)) r = x
      generalize curlField d K (bandMuinv d (band p H b2)) r = y
      generalize (if freqs b1 ≠ 0 then -1 / freqs b1 else -1) / Real.sqrt Vol = s
      generalize (if freqs b2 ≠ 0 then -1 / freqs b2 else -1) / Real.sqrt Vol = t
      apply Complex.ext <;> simp [herm, HMat.mulVec] <;> ring
    rw [Finset.sum_congr rfl e, ← Finset.mul_sum, hA', mul_zero, mul_zero]
  · have hP := parseval_inner hN hU hK (band p H b1) (bandMuinv d (band p H b2))
    rw [ho] at hP
    have hP' := (mul_eq_zero.1 hP).resolve_left hN'
    unfold overlap
    have e : ∀ r ∈ Finset.range d.N, herm (at3 (getB d p H buf3 Vol b1) r) (at3 (getH d p H W0'' buf'' buf2'' Vol b2) r) =
        ((1 / Real.sqrt Vol * (1 / Real.sqrt Vol) : ℝ) : ℂ) * herm (plainField d (band p H b1) r) (plainField d (bandMuinv d (band p H b2)) r) := by
      intro r hr
      rw [← cvec_at3, ← cvec_at3, getB_vec d p H buf3 Vol b1 (Finset.mem_range.1 hr), getH_vec d p H W0'' buf'' buf2'' Vol b2 (Finset.mem_range.1 hr), herm_smul]
    rw [Finset.sum_congr rfl e, ← Finset.mul_sum, hP', mul_zero, mul_zero]

/-! ### A concrete mode, and the two failures -/

theorem exD_inverse : InverseTransforms exD := by
  intro G hG G' hG'
  have : exD.N = 1 := rfl
  rw [this] at hG hG' ⊢
  have : G = G' := by omega
  simp [this, exD]

/-- Non-vacuity of `C110_faraday`. -/
example (G : ℕ) (hG : G < exD.N) : curl exD (fun _ => ⟨2, 0, 0⟩) (at3 (getE exD 1 (fun a => if a = 0 then 1 else 0) 0 0 0 (fun _ => Real.sqrt 4) 8 0)) G =
    V3.smul ((Real.sqrt 4 : ℝ) : ℂ) (coef exD (at3 (getB exD 1 (fun a => if a = 0 then 1 else 0) 0 8 0)) G) :=
  C110_faraday exD exD_ok.2.1 exD_inverse _ exD_basis (by intro mu hm; simp [exD] at hm) 1 _ 0 0 0 0 (fun _ => Real.sqrt 4) 8 0 4
    (by norm_num) exD_eigen rfl G hG

/-- The two polarisations of the same planewave as a block of two bands. -/
def exH2 (a : ℕ) : ℂ := if a = 0 ∨ a = 3 then 1 else 0

theorem exH2_eigen (b : ℕ) (hb : b < 2) : EigenBand exD (band 2 exH2 b) 4 := by
  have hN : ∀ G, G < exD.N → G = 0 := by
    intro G hG
    have : exD.N = 1 := rfl
    omega
  rcases (by omega : b = 0 ∨ b = 1) with rfl | rfl
  all_goals
    constructor
    · intro G hG
      rw [hN G hG]
      simp [bandMaxwell, bandMuinv, bandOp, exD, colOp, transform, OpData.N, band, crossT2c, crossC2t, HMat.mulVec, exH2]
      constructor <;> apply Complex.ext <;> simp <;> norm_num
    · simp [bandMuinv, exD, Maxwell.Spec.inner, OpData.N, band, hermT, exH2]

/-- Non-vacuity of `C110_orthogonal`. -/
example (freqs : ℕ → ℝ) : overlap exD.N 8 (at3 (getE exD 2 exH2 0 0 0 freqs 8 0)) (at3 (getD exD 2 exH2 0 0 0 freqs 8 1)) = 0 :=
  (C110_orthogonal exD exD_ok.1 exD_ok.2.1 exD_ok.2.2 _ exD_basis 2 exH2 0 0 0 0 0 0 0 0 0 0 freqs 8 0 1 4 4 (exH2_eigen 0 (by norm_num))
    (exH2_eigen 1 (by norm_num)) (by simp [bandMuinv, exD, Maxwell.Spec.inner, OpData.N, band, hermT, exH2])).1

/-- **C110, refuted** in negative-epsilon mode: the stored "frequency" of this mode is `ω² = 4`, and the curl of the E field is `i` times
the B field, neither `2i` nor `4i` times. -/
theorem C110_negative_refuted :
    ¬ ∀ (d : OpData) (_ : AdjointTransforms d) (_ : InverseTransforms d) (K : ℕ → V3 ℝ) (_ : ∀ G < d.N, IsBasis (K G) (d.kpg G))
      (_ : MuPD d) (p : ℕ) (H W0 buf buf2 buf3 : ℕ → ℂ) (freqs : ℕ → ℝ) (Vol : ℝ) (b : ℕ) (lam : ℝ), 0 < Vol → 0 < lam →
      EigenBand d (band p H b) lam → freqs b = storedFreq true lam → ∀ G < d.N,
        curl d K (at3 (getE d p H W0 buf buf2 freqs Vol b)) G = V3.smul (freqs b : ℂ) (coef d (at3 (getB d p H buf3 Vol b)) G) ∨
        curl d K (at3 (getE d p H W0 buf buf2 freqs Vol b)) G = V3.smul ((Real.sqrt lam : ℝ) : ℂ) (coef d (at3 (getB d p H buf3 Vol b)) G) := by
  intro h
  have hmu : MuPD exD := by intro mu hm; simp [exD] at hm
  have h4 : Real.sqrt 4 = 2 := by rw [show (4 : ℝ) = 2 * 2 by norm_num]; exact Real.sqrt_mul_self (by norm_num)
  have hG : 0 < exD.N := exD_ok.1
  have h0 := h exD exD_ok.2.1 exD_inverse _ exD_basis hmu 1 _ 0 0 0 0 (fun _ => 4) 1 0 4 one_pos (by norm_num) exD_eigen rfl 0 hG
  rw [curl_E exD_ok.2.1 exD_inverse exD_basis hmu 1 _ 0 0 0 0 (fun _ => 4) 1 0 exD_eigen (by norm_num) hG, coef_B exD_inverse _ _ _ _ _ hG] at h0
  rcases h0 with h0 | h0
  · have := congrArg V3.y h0
    simp [exD, cart, band, toC] at this
  · have := congrArg V3.y h0
    rw [h4] at this
    simp [exD, cart, band, toC] at this

/-- One grid point, `k + G = (2,0,0)`, vacuum with the permeability whose inverse is `[[1,1/2,0],[1/2,1,0],[0,0,1]]`. -/
noncomputable def exM : OpData := { exD with muInv := some (fun _ => ⟨1, 1, 1, 1 / 2, 0, 0⟩) }

theorem exM_mu (x : ℕ → ℂ × ℂ) : bandMu exM (fun _ => ⟨1, 1, 1, 1 / 2, 0, 0⟩) x 0 = x 0 := by
  unfold bandMu colOp
  simp only [C02_t2c]
  refine Prod.ext ?_ ?_ <;> apply Complex.ext <;> simp [exM, exD, transform, OpData.N, cart, c2t, HMat.mulVec, toC]

theorem exM_eigen : EigenBand exM (band 1 (fun a => if a = 0 then 1 else 0) 0) 4 := by
  have h0 : ∀ G, G < exM.N → G = 0 := by
    intro G hG
    have : exM.N = 1 := rfl
    omega
  have hr : 0 < exM.N := exD_ok.1
  set x := band 1 (fun a => if a = 0 then (1 : ℂ) else 0) 0 with hx
  have e1 : bandOp exM (bandMu exM (fun _ => ⟨1, 1, 1, 1 / 2, 0, 0⟩) x) 0 = bandOp exD x 0 := by
    unfold bandOp colOp
    have : ∀ G < exM.N, crossT2c (exM.kpg G) (bandMu exM (fun _ => ⟨1, 1, 1, 1 / 2, 0, 0⟩) x G).1 (bandMu exM (fun _ => ⟨1, 1, 1, 1 / 2, 0, 0⟩) x G).2 =
        crossT2c (exD.kpg G) (x G).1 (x G).2 := by
      intro G hG
      rw [h0 G hG, exM_mu]
      rfl
    rw [transform_congr this]
    rfl
  constructor
  · intro G hG
    rw [h0 G hG]
    have h := exD_eigen.eig 0 exD_ok.1
    show bandMu exM _ (bandOp exM (bandMu exM _ x)) 0 = _
    rw [exM_mu, e1]
    show _ = (_ * (bandMu exM (fun _ => ⟨1, 1, 1, 1 / 2, 0, 0⟩) x 0).1, _ * (bandMu exM (fun _ => ⟨1, 1, 1, 1 / 2, 0, 0⟩) x 0).2)
    rw [exM_mu]
    exact h
  · have h := exD_eigen.norm
    unfold Maxwell.Spec.inner at h ⊢
    refine Eq.trans ?_ h
    refine Finset.sum_congr rfl (fun G hG => ?_)
    rw [h0 G (Finset.mem_range.1 hG)]
    show hermT _ (bandMu exM (fun _ => ⟨1, 1, 1, 1 / 2, 0, 0⟩) x 0) = _
    rw [exM_mu]
    rfl

/-- **C110, refuted** with an anisotropic permeability: the H field returned is not `μ⁻¹ B`, because `get-hfield` keeps only the transverse
part.  Here `B = (0,1,0)`, so `μ⁻¹B = (1/2,1,0)`, but the field returned is `(0,1,0)`; the mode is a normalised eigenvector. -/
theorem C110_h_refuted : EigenBand exM (band 1 (fun a => if a = 0 then 1 else 0) 0) 4 ∧
    at3 (getB exM 1 (fun a => if a = 0 then 1 else 0) 0 1 0) 0 = ⟨0, 1, 0⟩ ∧
    (⟨1, 1, 1, 1 / 2, 0, 0⟩ : HMat).mulVec ⟨0, 1, 0⟩ = ⟨1 / 2, 1, 0⟩ ∧
    at3 (getH exM 1 (fun a => if a = 0 then 1 else 0) 0 0 0 1 0) 0 = ⟨0, 1, 0⟩ := by
  have hr : 0 < exM.N := exD_ok.1
  refine ⟨exM_eigen, ?_, ?_, ?_⟩
  · rw [← cvec_at3, getB_vec exM 1 _ _ 1 0 hr]
    ext <;> simp [plainField, transform, exM, exD, OpData.N, cart, band, toC]
  · ext <;> simp [HMat.mulVec] <;> apply Complex.ext <;> simp
  · rw [← cvec_at3, getH_vec exM 1 _ _ _ _ 1 0 hr]
    have e : plainField exM (bandMuinv exM (band 1 (fun a => if a = 0 then 1 else 0) 0)) 0 = plainField exM (band 1 (fun a => if a = 0 then 1 else 0) 0) 0 := by
      unfold plainField
      have : ∀ G < exM.N, cart (exM.kpg G) (bandMuinv exM (band 1 (fun a => if a = 0 then 1 else 0) 0) G) =
          cart (exM.kpg G) (band 1 (fun a => if a = 0 then 1 else 0) 0 G) := by
        intro G hG
        have : exM.N = 1 := rfl
        rw [show G = 0 by omega]
        exact congrArg _ (exM_mu _)
      rw [transform_congr this]
    rw [e]
    ext <;> simp [plainField, transform, exM, exD, OpData.N, cart, band, toC]

/-- Non-vacuity of `MuPD`: the permeability of the example is positive definite. -/
example : MuPD exM := by
  intro mu hm r _ v hv
  have e : mu = fun _ => ⟨1, 1, 1, 1 / 2, 0, 0⟩ := (Option.some.inj hm).symm
  subst e
  have hne : v.x.re ≠ 0 ∨ v.x.im ≠ 0 ∨ v.y.re ≠ 0 ∨ v.y.im ≠ 0 ∨ v.z.re ≠ 0 ∨ v.z.im ≠ 0 := by
    by_contra hc
    push Not at hc
    refine hv ?_
    ext <;> apply Complex.ext <;> simp [hc]
  have e2 : (herm v ((⟨1, 1, 1, 1 / 2, 0, 0⟩ : HMat).mulVec v)).re = v.x.re ^ 2 + v.x.im ^ 2 + v.y.re ^ 2 + v.y.im ^ 2 + v.z.re ^ 2 + v.z.im ^ 2 +
      (v.x.re * v.y.re + v.x.im * v.y.im) := by
    simp [herm, HMat.mulVec]; ring
  rw [e2]
  have h2 : ∀ t : ℝ, t ≠ 0 → 0 < t ^ 2 := fun t ht => by positivity
  have n1 := sq_nonneg (v.x.re + v.y.re)
  have n2 := sq_nonneg (v.x.im + v.y.im)
  rcases hne with h | h | h | h | h | h <;> have h3 := h2 _ h <;>
    nlinarith [sq_nonneg v.x.re, sq_nonneg v.x.im, sq_nonneg v.y.re, sq_nonneg v.y.im, sq_nonneg v.z.re, sq_nonneg v.z.im]

end Mpb.Laws

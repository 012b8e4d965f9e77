import Verif.Velocity.Lemmas
import Mathlib.Analysis.Calculus.Deriv.Basic
import Mathlib.Analysis.Calculus.Deriv.Slope
import Mathlib.Analysis.SpecialFunctions.Sqrt

/-! # Lemmas for the group velocity: the derivative of an eigenvalue with respect to the wavevector -/

namespace Mpb.Velocity
open Mpb.Maxwell Mpb.Maxwell.Spec Filter Topology

/-- `W[ k_G × a_G ]` for Cartesian amplitudes `a`. -/
noncomputable def cf (d : OpData) (k : ℕ → V3 ℝ) (a : ℕ → V3 ℂ) : ℕ → V3 ℂ :=
  transform d.Wf d.N (fun G => V3.cross (toC (k G)) (a G))

/-- `Σ_G a_G* · b_G`. -/
noncomputable def ip (N : ℕ) (a b : ℕ → V3 ℂ) : ℂ := ∑ G ∈ Finset.range N, herm (a G) (b G)

theorem transform_congr {W : ℕ → ℕ → ℂ} {N : ℕ} {a b : ℕ → V3 ℂ} (h : ∀ G < N, a G = b G) : transform W N a = transform W N b := by
  funext r
  have key : ∀ f : V3 ℂ → ℂ, ∑ j ∈ Finset.range N, W r j * f (a j) = ∑ j ∈ Finset.range N, W r j * f (b j) :=
    fun f => Finset.sum_congr rfl (fun j hj => by rw [h j (Finset.mem_range.1 hj)])
  unfold transform
  ext
  · exact key V3.x
  · exact key V3.y
  · exact key V3.z

/-- The contraction `crossC2t` after the backward transform is the adjoint of the curl. -/
theorem ip_crossC2t {d : OpData} (hW : AdjointTransforms d) {K : ℕ → V3 ℝ} (hK : ∀ G < d.N, IsBasis (K G) (d.kpg G))
    (a w : ℕ → V3 ℂ) :
    ip d.N a (fun G => cart (d.kpg G) (crossC2t (d.kpg G) (transform d.Wb d.N w G) (-1 / (d.N : ℝ)))) =
      (1 / (d.N : ℂ)) * ∑ r ∈ Finset.range d.N, herm (cf d K a r) (w r) := by
  unfold ip cf
  rw [← herm_transform hW, Finset.mul_sum]
  refine Finset.sum_congr rfl (fun G hG => ?_)
  simp only
  rw [C02_curl_c2t (K G) (d.kpg G) (hK G (Finset.mem_range.1 hG))]
  have : ∀ (k : V3 ℝ) (a b : V3 ℂ) (s : ℂ), herm a (V3.smul s (V3.cross (toC k) b)) = -s * herm (V3.cross (toC k) a) b := by
    intro k a b s
    simp only [herm, V3.cross, toC, V3.smul_x, V3.smul_y, V3.smul_z, V3.map_x, V3.map_y, V3.map_z, map_sub, map_mul, Complex.conj_ofReal]
    ring
  rw [this]
  push_cast
  ring

theorem ip_cart {d : OpData} {K : ℕ → V3 ℝ} (hK : ∀ G < d.N, IsBasis (K G) (d.kpg G)) (x y : ℕ → ℂ × ℂ) :
    ip d.N (fun G => cart (d.kpg G) (x G)) (fun G => cart (d.kpg G) (y G)) = Spec.inner d.N x y := by
  unfold ip Spec.inner
  refine Finset.sum_congr rfl (fun G hG => ?_)
  obtain ⟨-, -, mm, nn, mn, -, -, -⟩ := hK G (Finset.mem_range.1 hG)
  have mm' : ((d.kpg G).m.x : ℂ) * (d.kpg G).m.x + (d.kpg G).m.y * (d.kpg G).m.y + (d.kpg G).m.z * (d.kpg G).m.z = 1 := by exact_mod_cast mm
  have nn' : ((d.kpg G).n.x : ℂ) * (d.kpg G).n.x + (d.kpg G).n.y * (d.kpg G).n.y + (d.kpg G).n.z * (d.kpg G).n.z = 1 := by exact_mod_cast nn
  have mn' : ((d.kpg G).m.x : ℂ) * (d.kpg G).n.x + (d.kpg G).m.y * (d.kpg G).n.y + (d.kpg G).m.z * (d.kpg G).n.z = 0 := by exact_mod_cast mn
  simp only [herm, hermT, cart, toC, V3.add_x, V3.add_y, V3.add_z, V3.smul_x, V3.smul_y, V3.smul_z, V3.map_x, V3.map_y, V3.map_z,
    map_add, map_mul, Complex.conj_ofReal]
  linear_combination (starRingEnd ℂ (x G).1 * (y G).1) * mm' + (starRingEnd ℂ (x G).2 * (y G).2) * nn' +
    (starRingEnd ℂ (x G).1 * (y G).2 + starRingEnd ℂ (x G).2 * (y G).1) * mn'

/-- The weak form of the eigenvalue equation, tested with any Cartesian amplitudes, transverse or not. -/
theorem weak_form {d : OpData} (hW : AdjointTransforms d) {K : ℕ → V3 ℝ} (hK : ∀ G < d.N, IsBasis (K G) (d.kpg G))
    (x : ℕ → ℂ × ℂ) (lam : ℂ) (heig : ∀ G < d.N, bandOp d x G = (lam * (x G).1, lam * (x G).2)) (a : ℕ → V3 ℂ) :
    gridForm d.N d.epsInv (cf d K a) (cf d K (fun G => cart (d.kpg G) (x G))) = lam * ip d.N a (fun G => cart (d.kpg G) (x G)) := by
  have h1 := ip_crossC2t hW hK a (fun r => (d.epsInv r).mulVec (cf d K (fun G => cart (d.kpg G) (x G)) r))
  unfold gridForm
  rw [← h1]
  unfold ip
  rw [Finset.mul_sum]
  refine Finset.sum_congr rfl (fun G hG => ?_)
  have h2 := heig G (Finset.mem_range.1 hG)
  unfold bandOp colOp at h2
  have h3 : transform d.Wf d.N (fun G => crossT2c (d.kpg G) (x G).1 (x G).2) = cf d K (fun G => cart (d.kpg G) (x G)) :=
    transform_congr (fun G hG => C02_curl_t2c (K G) (d.kpg G) (hK G hG) _ _)
  rw [h3] at h2
  simp only
  rw [h2]
  simp only [herm, cart, V3.add_x, V3.add_y, V3.add_z, V3.smul_x, V3.smul_y, V3.smul_z]
  ring

theorem cf_add (d : OpData) (k : ℕ → V3 ℝ) (u : V3 ℝ) (t : ℝ) (a : ℕ → V3 ℂ) (r : ℕ) :
    cf d (fun G => k G + V3.smul t u) a r = cf d k a r + V3.smul (t : ℂ) (cf d (fun _ => u) a r) := by
  unfold cf transform
  ext
  all_goals
    simp only [V3.add_x, V3.add_y, V3.add_z, V3.smul_x, V3.smul_y, V3.smul_z, Finset.mul_sum]
    rw [← Finset.sum_add_distrib]
    refine Finset.sum_congr rfl (fun j _ => ?_)
    simp only [V3.cross, toC, V3.map_x, V3.map_y, V3.map_z, V3.add_x, V3.add_y, V3.add_z, V3.smul_x, V3.smul_y, V3.smul_z]
    push_cast
    ring

theorem herm_mulVec_expand (M : HMat) (a a' b b' : V3 ℂ) (t : ℝ) :
    herm (a + V3.smul (t : ℂ) a') (M.mulVec (b + V3.smul (t : ℂ) b')) = herm a (M.mulVec b) +
      t * (herm a' (M.mulVec b) + herm a (M.mulVec b') + t * herm a' (M.mulVec b')) := by
  apply Complex.ext <;> simp [herm, HMat.mulVec] <;> ring

theorem gridForm_expand (N : ℕ) (M : ℕ → HMat) (a a' b b' : ℕ → V3 ℂ) (t : ℝ) :
    gridForm N M (fun r => a r + V3.smul (t : ℂ) (a' r)) (fun r => b r + V3.smul (t : ℂ) (b' r)) = gridForm N M a b +
      t * (gridForm N M a' b + gridForm N M a b' + t * gridForm N M a' b') := by
  unfold gridForm
  simp only [herm_mulVec_expand, Finset.sum_add_distrib, ← Finset.mul_sum]
  ring

theorem continuousAt_mulVec {t0 : ℝ} (M : HMat) {f : ℝ → V3 ℂ} (hx : ContinuousAt (fun t => (f t).x) t0)
    (hy : ContinuousAt (fun t => (f t).y) t0) (hz : ContinuousAt (fun t => (f t).z) t0) (a : V3 ℂ) :
    ContinuousAt (fun t => herm a (M.mulVec (f t))) t0 := by
  have e : ∀ v : V3 ℂ, M.mulVec v = ⟨M.m00 * v.x + M.m01 * v.y + M.m02 * v.z,
      M.m11 * v.y + (starRingEnd ℂ) M.m01 * v.x + M.m12 * v.z, M.m22 * v.z + (starRingEnd ℂ) M.m02 * v.x + (starRingEnd ℂ) M.m12 * v.y⟩ := by
    intro v
    ext <;> apply Complex.ext <;> simp [HMat.mulVec] <;> ring
  simp only [e, herm]
  fun_prop

theorem continuousAt_cf {t0 : ℝ} (d : OpData) (k : ℕ → V3 ℝ) {h : ℝ → ℕ → V3 ℂ}
    (hx : ∀ G < d.N, ContinuousAt (fun t => (h t G).x) t0) (hy : ∀ G < d.N, ContinuousAt (fun t => (h t G).y) t0)
    (hz : ∀ G < d.N, ContinuousAt (fun t => (h t G).z) t0) (r : ℕ) :
    ContinuousAt (fun t => (cf d k (h t) r).x) t0 ∧ ContinuousAt (fun t => (cf d k (h t) r).y) t0 ∧
      ContinuousAt (fun t => (cf d k (h t) r).z) t0 := by
  unfold cf transform
  simp only [V3.cross, toC, V3.map_x, V3.map_y, V3.map_z]
  refine ⟨?_, ?_, ?_⟩
  all_goals
    refine tendsto_finsetSum _ (fun j hj => ?_)
    have h1 := hx j (Finset.mem_range.1 hj)
    have h2 := hy j (Finset.mem_range.1 hj)
    have h3 := hz j (Finset.mem_range.1 hj)
    change ContinuousAt _ t0
    fun_prop

theorem continuousAt_gridForm {t0 : ℝ} (d : OpData) (k : ℕ → V3 ℝ) (M : ℕ → HMat) (a : ℕ → V3 ℂ) {h : ℝ → ℕ → V3 ℂ}
    (hx : ∀ G < d.N, ContinuousAt (fun t => (h t G).x) t0) (hy : ∀ G < d.N, ContinuousAt (fun t => (h t G).y) t0)
    (hz : ∀ G < d.N, ContinuousAt (fun t => (h t G).z) t0) :
    ContinuousAt (fun t => gridForm d.N M a (cf d k (h t))) t0 := by
  unfold gridForm
  refine ContinuousAt.mul continuousAt_const ?_
  refine tendsto_finsetSum _ (fun r _ => ?_)
  obtain ⟨h1, h2, h3⟩ := continuousAt_cf d k hx hy hz r
  exact continuousAt_mulVec (M r) h1 h2 h3 (a r)

theorem continuousAt_ip {t0 : ℝ} {N : ℕ} (a : ℕ → V3 ℂ) {h : ℝ → ℕ → V3 ℂ}
    (hx : ∀ G < N, ContinuousAt (fun t => (h t G).x) t0) (hy : ∀ G < N, ContinuousAt (fun t => (h t G).y) t0)
    (hz : ∀ G < N, ContinuousAt (fun t => (h t G).z) t0) : ContinuousAt (fun t => ip N a (h t)) t0 := by
  unfold ip
  refine tendsto_finsetSum _ (fun j hj => ?_)
  have h1 := hx j (Finset.mem_range.1 hj)
  have h2 := hy j (Finset.mem_range.1 hj)
  have h3 := hz j (Finset.mem_range.1 hj)
  change ContinuousAt _ t0
  unfold herm
  fun_prop

/-- Derivative of an eigenvalue from a symmetric weak form. -/
theorem hasDerivAt_of_weak {d : OpData} (k : ℕ → V3 ℝ) (u : V3 ℝ) (h b : ℝ → ℕ → V3 ℂ) (lam : ℝ → ℝ)
    (hx : ∀ G < d.N, ContinuousAt (fun t => (h t G).x) 0) (hy : ∀ G < d.N, ContinuousAt (fun t => (h t G).y) 0)
    (hz : ∀ G < d.N, ContinuousAt (fun t => (h t G).z) 0) 
    (bx : ∀ G < d.N, ContinuousAt (fun t => (b t G).x) 0) (by' : ∀ G < d.N, ContinuousAt (fun t => (b t G).y) 0)
    (bz : ∀ G < d.N, ContinuousAt (fun t => (b t G).z) 0)
    (hnorm : ip d.N (h 0) (b 0) = 1) (hsym : ∀ t, ip d.N (h 0) (b t) = (starRingEnd ℂ) (ip d.N (h t) (b 0)))
    (hweak : ∀ᶠ t in 𝓝 (0 : ℝ), ∀ a, gridForm d.N d.epsInv (cf d (fun G => k G + V3.smul t u) a)
      (cf d (fun G => k G + V3.smul t u) (h t)) = lam t * ip d.N a (b t)) :
    HasDerivAt lam (2 * (gridForm d.N d.epsInv (cf d k (h 0)) (cf d (fun _ => u) (h 0))).re) 0 := by
  set g : ℝ → ℂ := fun t => gridForm d.N d.epsInv (cf d (fun _ => u) (h 0)) (cf d k (h t)) +
    gridForm d.N d.epsInv (cf d k (h 0)) (cf d (fun _ => u) (h t)) +
    t * gridForm d.N d.epsInv (cf d (fun _ => u) (h 0)) (cf d (fun _ => u) (h t)) with hg
  have hgc : ContinuousAt g 0 := by
    have h1 := continuousAt_gridForm d k d.epsInv (cf d (fun _ => u) (h 0)) hx hy hz
    have h2 := continuousAt_gridForm d (fun _ => u) d.epsInv (cf d k (h 0)) hx hy hz
    have h3 := continuousAt_gridForm d (fun _ => u) d.epsInv (cf d (fun _ => u) (h 0)) hx hy hz
    have h4 : ContinuousAt (fun t : ℝ => (t : ℂ)) 0 := Complex.continuous_ofReal.continuousAt
    exact (h1.add h2).add (h4.mul h3)
  have hpc : ContinuousAt (fun t => ip d.N (h 0) (b t)) 0 := continuousAt_ip (h 0) bx by' bz
  have h0 : ∀ a, gridForm d.N d.epsInv (cf d k a) (cf d k (h 0)) = lam 0 * ip d.N a (b 0) := by
    intro a
    have := hweak.self_of_nhds a
    have e : (fun G => k G + V3.smul (0 : ℝ) u) = k := by funext G; ext <;> simp
    rwa [e] at this
  have hne : ∀ᶠ t in 𝓝 (0 : ℝ), ip d.N (h 0) (b t) ≠ 0 := hpc.eventually_ne (by simp only [hnorm]; exact one_ne_zero)
  have hkey : ∀ᶠ t in 𝓝 (0 : ℝ), ((lam t - lam 0 : ℝ) : ℂ) * ip d.N (h 0) (b t) = t * g t := by
    filter_upwards [hweak] with t ht
    have e1 := ht (h 0)
    have e2 : gridForm d.N d.epsInv (cf d k (h 0)) (cf d k (h t)) = lam 0 * ip d.N (h 0) (b t) := by
      rw [gridForm_symm, h0 (h t), map_mul, Complex.conj_ofReal]
      rw [hsym t]
    have e3 : gridForm d.N d.epsInv (cf d (fun G => k G + V3.smul t u) (h 0)) (cf d (fun G => k G + V3.smul t u) (h t)) =
        gridForm d.N d.epsInv (cf d k (h 0)) (cf d k (h t)) + t * g t := by
      have : ∀ a, cf d (fun G => k G + V3.smul t u) a = fun r => cf d k a r + V3.smul (t : ℂ) (cf d (fun _ => u) a r) :=
        fun a => funext (fun r => cf_add d k u t a r)
      rw [this, this, gridForm_expand, hg]
    rw [e1, e2] at e3
    push_cast
    linear_combination e3
  rw [hasDerivAt_iff_tendsto_slope]
  have hlim : Tendsto (fun t => (g t / ip d.N (h 0) (b t)).re) (𝓝[≠] 0) (𝓝 (2 * (gridForm d.N d.epsInv (cf d k (h 0)) (cf d (fun _ => u) (h 0))).re)) := by
    have hc : ContinuousAt (fun t => (g t / ip d.N (h 0) (b t)).re) 0 :=
      Complex.continuous_re.continuousAt.comp (hgc.div hpc (by rw [hnorm]; exact one_ne_zero))
    have hv : (g 0 / ip d.N (h 0) (b 0)).re = 2 * (gridForm d.N d.epsInv (cf d k (h 0)) (cf d (fun _ => u) (h 0))).re := by
      rw [hnorm, div_one, hg]
      simp only [Complex.ofReal_zero, zero_mul, add_zero, Complex.add_re]
      rw [gridForm_symm, Complex.conj_re]
      ring
    rw [← hv]
    exact hc.tendsto.mono_left nhdsWithin_le_nhds
  refine hlim.congr' ?_
  have hk2 := hkey.filter_mono (nhdsWithin_le_nhds (s := {x : ℝ | x ≠ 0}))
  have hn2 := hne.filter_mono (nhdsWithin_le_nhds (s := {x : ℝ | x ≠ 0}))
  filter_upwards [hk2, hn2, self_mem_nhdsWithin] with t h1 h2 h3
  have h3' : (t : ℂ) ≠ 0 := by exact_mod_cast h3
  have : g t / ip d.N (h 0) (b t) = (((lam t - lam 0) / t : ℝ) : ℂ) := by
    rw [div_eq_iff h2]
    push_cast
    push_cast at h1
    field_simp
    linear_combination -h1
  rw [this, Complex.ofReal_re, slope_def_field, sub_zero]

/-! ### Permeability -/

theorem ip_symm (N : ℕ) (a b : ℕ → V3 ℂ) : ip N a b = (starRingEnd ℂ) (ip N b a) := by
  unfold ip
  rw [map_sum]
  refine Finset.sum_congr rfl (fun G _ => ?_)
  simp only [herm, map_add, map_mul, Complex.conj_conj]
  ring

/-- The whole field `μ⁻¹ b`, not only its transverse part. -/
noncomputable def muField (d : OpData) (mu : ℕ → HMat) (b : ℕ → V3 ℂ) (G : ℕ) : V3 ℂ :=
  V3.smul (1 / (d.N : ℂ)) (transform d.Wb d.N (fun r => (mu r).mulVec (transform d.Wf d.N b r)) G)

theorem ip_muField {d : OpData} (hW : AdjointTransforms d) (mu : ℕ → HMat) (a b : ℕ → V3 ℂ) :
    ip d.N a (muField d mu b) = gridForm d.N mu (transform d.Wf d.N a) (transform d.Wf d.N b) := by
  unfold ip gridForm
  rw [← herm_transform hW, Finset.mul_sum]
  refine Finset.sum_congr rfl (fun G _ => ?_)
  simp only [herm, muField, V3.smul_x, V3.smul_y, V3.smul_z]
  ring

theorem ip_muField_symm {d : OpData} (hW : AdjointTransforms d) (mu : ℕ → HMat) (a b : ℕ → V3 ℂ) :
    ip d.N a (muField d mu b) = ip d.N (muField d mu a) b := by
  rw [ip_symm d.N (muField d mu a) b, ip_muField hW, ip_muField hW, gridForm_symm]

/-- The curl of a field does not see what `project_c2t` drops. -/
theorem cross_c2t (K : V3 ℝ) (k : KData) (h : IsBasis K k) (a : V3 ℂ) (s : ℝ) :
    V3.cross (toC K) (cart k (c2t k a s)) = V3.smul (s : ℂ) (V3.cross (toC K) a) := by
  -- `K × a` in the basis `m, n`: both sides are the same combination
  have hc : ∀ b : V3 ℂ, V3.cross (toC K) b = cart k (crossC2t k b 1) := by
    intro b
    rw [C02_curl_c2t K k h b 1]
    ext <;> simp
  rw [hc, hc]
  obtain ⟨-, -, mm, nn, mn, -, -, -⟩ := h
  have key : crossC2t k (cart k (c2t k a s)) 1 = ((s : ℂ) * (crossC2t k a 1).1, (s : ℂ) * (crossC2t k a 1).2) := by
    refine Prod.ext ?_ ?_ <;> apply Complex.ext <;>
      simp only [crossC2t, cart, c2t, toC, V3.add_x, V3.add_y, V3.add_z, V3.smul_x, V3.smul_y, V3.smul_z, V3.map_x, V3.map_y, V3.map_z,
        Complex.add_re, Complex.add_im, Complex.mul_re, Complex.mul_im, Complex.ofReal_re, Complex.ofReal_im]
    · linear_combination (-(a.x.re * k.n.x + a.y.re * k.n.y + a.z.re * k.n.z) * s * k.kmag) * nn -
        ((a.x.re * k.m.x + a.y.re * k.m.y + a.z.re * k.m.z) * s * k.kmag) * mn
    · linear_combination (-(a.x.im * k.n.x + a.y.im * k.n.y + a.z.im * k.n.z) * s * k.kmag) * nn -
        ((a.x.im * k.m.x + a.y.im * k.m.y + a.z.im * k.m.z) * s * k.kmag) * mn
    · linear_combination ((a.x.re * k.m.x + a.y.re * k.m.y + a.z.re * k.m.z) * s * k.kmag) * mm +
        ((a.x.re * k.n.x + a.y.re * k.n.y + a.z.re * k.n.z) * s * k.kmag) * mn
    · linear_combination ((a.x.im * k.m.x + a.y.im * k.m.y + a.z.im * k.m.z) * s * k.kmag) * mm +
        ((a.x.im * k.n.x + a.y.im * k.n.y + a.z.im * k.n.z) * s * k.kmag) * mn
  rw [key]
  simp only [cart]
  ext <;> simp only [V3.add_x, V3.add_y, V3.add_z, V3.smul_x, V3.smul_y, V3.smul_z] <;> ring

/-- The two transforms undo each other up to the factor `N` (FFTW). -/
def InverseTransforms (d : OpData) : Prop :=
  ∀ G < d.N, ∀ G' < d.N, ∑ r ∈ Finset.range d.N, d.Wb G r * d.Wf r G' = if G = G' then (d.N : ℂ) else 0

/-- The tensor is positive definite. -/
def PD (M : HMat) : Prop := ∀ v : V3 ℂ, v ≠ 0 → 0 < (herm v (M.mulVec v)).re

theorem transform_inverse {d : OpData} (hI : InverseTransforms d) (a : ℕ → V3 ℂ) {G : ℕ} (hG : G < d.N) :
    transform d.Wb d.N (transform d.Wf d.N a) G = V3.smul (d.N : ℂ) (a G) := by
  have key : ∀ f : V3 ℂ → ℂ, ∑ r ∈ Finset.range d.N, d.Wb G r * ∑ j ∈ Finset.range d.N, d.Wf r j * f (a j) = d.N * f (a G) := by
    intro f
    simp only [Finset.mul_sum]
    rw [Finset.sum_comm]
    have : ∀ j ∈ Finset.range d.N, ∑ r ∈ Finset.range d.N, d.Wb G r * (d.Wf r j * f (a j)) = if G = j then (d.N : ℂ) * f (a j) else 0 := by
      intro j hj
      have := hI G hG j (Finset.mem_range.1 hj)
      simp only [← mul_assoc]
      rw [← Finset.sum_mul, this]
      split <;> simp
    rw [Finset.sum_congr rfl this, Finset.sum_ite_eq, if_pos (Finset.mem_range.2 hG)]
  unfold transform
  ext
  · exact key V3.x
  · exact key V3.y
  · exact key V3.z

/-- Positive definite tensors: the form vanishes only for the zero field. -/
theorem eq_zero_of_form {d : OpData} (hI : InverseTransforms d) {mu : ℕ → HMat} (hmu : ∀ r < d.N, PD (mu r)) (a : ℕ → V3 ℂ)
    (h : gridForm d.N mu (transform d.Wf d.N a) (transform d.Wf d.N a) = 0) : ∀ G < d.N, a G = 0 := by
  intro G hG
  have hN : 0 < d.N := by omega
  have hz : ∀ r < d.N, transform d.Wf d.N a r = 0 := by
    have hs : ∑ r ∈ Finset.range d.N, (herm (transform d.Wf d.N a r) ((mu r).mulVec (transform d.Wf d.N a r))).re = 0 := by
      have := congrArg Complex.re h
      unfold gridForm at this
      have e : (1 / (d.N : ℂ)) = ((1 / (d.N : ℝ) : ℝ) : ℂ) := by push_cast; rfl
      rw [e, Complex.re_ofReal_mul, Complex.re_sum, Complex.zero_re] at this
      rcases mul_eq_zero.1 this with h0 | h0
      · exfalso
        have : (d.N : ℝ) ≠ 0 := by exact_mod_cast hN.ne'
        exact (one_div_ne_zero this) h0
      · exact h0
    have hnn : ∀ r ∈ Finset.range d.N, 0 ≤ (herm (transform d.Wf d.N a r) ((mu r).mulVec (transform d.Wf d.N a r))).re := by
      intro r hr
      by_cases hv : transform d.Wf d.N a r = 0
      · rw [hv]; simp [herm, HMat.mulVec]
      · exact (hmu r (Finset.mem_range.1 hr) _ hv).le
    intro r hr
    by_contra hv
    have := (Finset.sum_eq_zero_iff_of_nonneg hnn).1 hs r (Finset.mem_range.2 hr)
    exact absurd this (hmu r hr _ hv).ne'
  have h1 := transform_inverse hI a hG
  have h2 : transform d.Wb d.N (transform d.Wf d.N a) G = 0 := by
    rw [transform_congr (b := fun _ => 0) hz]
    unfold transform
    ext <;> simp
  rw [h2] at h1
  have hN' : (d.N : ℂ) ≠ 0 := by exact_mod_cast hN.ne'
  have hx : (d.N : ℂ) * (a G).x = 0 := (congrArg V3.x h1).symm
  have hy : (d.N : ℂ) * (a G).y = 0 := (congrArg V3.y h1).symm
  have hzz : (d.N : ℂ) * (a G).z = 0 := (congrArg V3.z h1).symm
  ext
  · exact (mul_eq_zero.1 hx).resolve_left hN'
  · exact (mul_eq_zero.1 hy).resolve_left hN'
  · exact (mul_eq_zero.1 hzz).resolve_left hN'

theorem bandMu_eq (d : OpData) (mu : ℕ → HMat) (x : ℕ → ℂ × ℂ) (G : ℕ) :
    bandMu d mu x G = c2t (d.kpg G) (muField d mu (fun G => cart (d.kpg G) (x G)) G) 1 := by
  unfold bandMu colOp muField
  simp only [C02_t2c]
  generalize transform d.Wb d.N _ G = a
  refine Prod.ext ?_ ?_ <;> apply Complex.ext <;> simp [c2t, V3.smul] <;> ring

/-- The curl of the transverse part of `μ⁻¹ b` is the curl of `μ⁻¹ b`. -/
theorem cf_bandMu {d : OpData} {K : ℕ → V3 ℝ} (hK : ∀ G < d.N, IsBasis (K G) (d.kpg G)) (mu : ℕ → HMat) (x : ℕ → ℂ × ℂ) :
    cf d K (fun G => cart (d.kpg G) (bandMu d mu x G)) = cf d K (muField d mu (fun G => cart (d.kpg G) (x G))) := by
  refine transform_congr (fun G hG => ?_)
  simp only
  rw [bandMu_eq, cross_c2t (K G) _ (hK G hG)]
  ext <;> simp

theorem hasDerivAt_mu_aux {d : OpData} (hW : AdjointTransforms d) (hI : InverseTransforms d) {K : ℕ → V3 ℝ}
    (hK : ∀ G < d.N, IsBasis (K G) (d.kpg G)) {mu : ℕ → HMat} (hmu : ∀ r < d.N, PD (mu r)) (x : ℕ → ℂ × ℂ) (lam : ℂ)
    (heig : ∀ G < d.N, bandMu d mu (bandOp d (bandMu d mu x)) G = (lam * (bandMu d mu x G).1, lam * (bandMu d mu x G).2)) :
    ∀ G < d.N, bandOp d (bandMu d mu x) G = (lam * (x G).1, lam * (x G).2) := by
  have lm : ∀ (s t : ℂ) (x y : ℕ → ℂ × ℂ) G, bandMu d mu (fun G => (s * (x G).1 + t * (y G).1, s * (x G).2 + t * (y G).2)) G =
      (s * (bandMu d mu x G).1 + t * (bandMu d mu y G).1, s * (bandMu d mu x G).2 + t * (bandMu d mu y G).2) := fun s t x y G => by
    refine colOp_linear t2c c2t d _ _ s t (fun k x y x' y' => ?_) (fun k a b => ?_) x y G
    · ext <;> apply Complex.ext <;> simp [t2c] <;> ring
    · refine Prod.ext ?_ ?_ <;> apply Complex.ext <;> simp [c2t] <;> ring
  set y : ℕ → ℂ × ℂ := fun G => (1 * (bandOp d (bandMu d mu x) G).1 + (-lam) * (x G).1,
    1 * (bandOp d (bandMu d mu x) G).2 + (-lam) * (x G).2) with hy
  have hy0 : ∀ G < d.N, bandMu d mu y G = (0, 0) := by
    intro G hG
    rw [hy, lm, heig G hG]
    refine Prod.ext ?_ ?_ <;> simp
  have hform : gridForm d.N mu (transform d.Wf d.N (fun G => cart (d.kpg G) (y G))) (transform d.Wf d.N (fun G => cart (d.kpg G) (y G))) = 0 := by
    have := inner_plain hW mu y y
    unfold plainField at this
    rw [← this]
    refine (inner_congr (fun _ _ => rfl) hy0).trans ?_
    unfold Spec.inner
    simp [hermT]
  have hz := eq_zero_of_form hI hmu (fun G => cart (d.kpg G) (y G)) hform
  intro G hG
  have hyz : y G = (0, 0) := by
    have h1 := ip_cart (d := d) hK (fun G' => if G' = G then y G' else (0, 0)) (fun G' => if G' = G then y G' else (0, 0))
    have h2 : ip d.N (fun G' => cart (d.kpg G') (if G' = G then y G' else (0, 0))) (fun G' => cart (d.kpg G') (if G' = G then y G' else (0, 0))) = 0 := by
      unfold ip
      refine Finset.sum_eq_zero (fun G' hG' => ?_)
      by_cases he : G' = G
      · simp only [he, if_true]
        rw [hz G hG]; simp [herm]
      · simp only [if_neg he]; simp [herm, cart]
    rw [h2] at h1
    unfold Spec.inner at h1
    have h3 : hermT (y G) (y G) = 0 := by
      rw [h1]
      have : ∀ G' ∈ Finset.range d.N, hermT (if G' = G then y G' else (0, 0)) (if G' = G then y G' else (0, 0)) = if G = G' then hermT (y G') (y G') else 0 := by
        intro G' _
        by_cases he : G' = G
        · simp [he]
        · rw [if_neg he, if_neg (Ne.symm he)]; simp [hermT]
      rw [Finset.sum_congr rfl this, Finset.sum_ite_eq, if_pos (Finset.mem_range.2 hG)]
    have h4 := congrArg Complex.re h3
    simp only [hermT, Complex.add_re, Complex.mul_re, Complex.conj_re, Complex.conj_im, Complex.zero_re] at h4
    have h5 : (y G).1.re = 0 ∧ (y G).1.im = 0 ∧ (y G).2.re = 0 ∧ (y G).2.im = 0 := by
      refine ⟨?_, ?_, ?_, ?_⟩ <;> nlinarith [mul_self_nonneg (y G).1.re, mul_self_nonneg (y G).1.im, mul_self_nonneg (y G).2.re, mul_self_nonneg (y G).2.im]
    exact Prod.ext (Complex.ext h5.1 h5.2.1) (Complex.ext h5.2.2.1 h5.2.2.2)
  have e1 : (y G).1 = 0 := by rw [hyz]
  have e2 : (y G).2 = 0 := by rw [hyz]
  simp only [hy] at e1 e2
  refine Prod.ext ?_ ?_
  · simp only; linear_combination e1
  · simp only; linear_combination e2

/-- The weak form with a permeability, tested with any Cartesian amplitudes. -/
theorem weak_form_mu {d : OpData} (hW : AdjointTransforms d) (hI : InverseTransforms d) {K : ℕ → V3 ℝ}
    (hK : ∀ G < d.N, IsBasis (K G) (d.kpg G)) {mu : ℕ → HMat} (hmu : ∀ r < d.N, PD (mu r)) (x : ℕ → ℂ × ℂ) (lam : ℂ)
    (heig : ∀ G < d.N, bandMu d mu (bandOp d (bandMu d mu x)) G = (lam * (bandMu d mu x G).1, lam * (bandMu d mu x G).2)) (a : ℕ → V3 ℂ) :
    gridForm d.N d.epsInv (cf d K a) (cf d K (muField d mu (fun G => cart (d.kpg G) (x G)))) =
      lam * ip d.N a (fun G => cart (d.kpg G) (x G)) := by
  have hb := hasDerivAt_mu_aux hW hI hK hmu x lam heig
  rw [← cf_bandMu hK]
  have h1 := ip_crossC2t hW hK a (fun r => (d.epsInv r).mulVec (cf d K (fun G => cart (d.kpg G) (bandMu d mu x G)) r))
  unfold gridForm
  rw [← h1]
  unfold ip
  rw [Finset.mul_sum]
  refine Finset.sum_congr rfl (fun G hG => ?_)
  have h2 := hb G (Finset.mem_range.1 hG)
  unfold bandOp colOp at h2
  have h3 : transform d.Wf d.N (fun G => crossT2c (d.kpg G) (bandMu d mu x G).1 (bandMu d mu x G).2) =
      cf d K (fun G => cart (d.kpg G) (bandMu d mu x G)) :=
    transform_congr (fun G hG => C02_curl_t2c (K G) (d.kpg G) (hK G hG) _ _)
  rw [h3] at h2
  simp only
  rw [h2]
  simp only [herm, cart, V3.add_x, V3.add_y, V3.add_z, V3.smul_x, V3.smul_y, V3.smul_z]
  ring

theorem continuousAt_transform {t0 : ℝ} (W : ℕ → ℕ → ℂ) (N : ℕ) {b : ℝ → ℕ → V3 ℂ}
    (hx : ∀ G < N, ContinuousAt (fun t => (b t G).x) t0) (hy : ∀ G < N, ContinuousAt (fun t => (b t G).y) t0)
    (hz : ∀ G < N, ContinuousAt (fun t => (b t G).z) t0) (r : ℕ) :
    ContinuousAt (fun t => (transform W N (b t) r).x) t0 ∧ ContinuousAt (fun t => (transform W N (b t) r).y) t0 ∧
      ContinuousAt (fun t => (transform W N (b t) r).z) t0 := by
  have key : ∀ f : ℝ → ℕ → ℂ, (∀ G < N, ContinuousAt (fun t => f t G) t0) →
      ContinuousAt (fun t => ∑ j ∈ Finset.range N, W r j * f t j) t0 := by
    intro f hf
    refine tendsto_finsetSum _ (fun j hj => ?_)
    have h1 := hf j (Finset.mem_range.1 hj)
    change ContinuousAt (fun t => W r j * f t j) t0
    exact ContinuousAt.mul continuousAt_const h1
  exact ⟨key _ hx, key _ hy, key _ hz⟩

theorem continuousAt_muField {t0 : ℝ} (d : OpData) (mu : ℕ → HMat) {b : ℝ → ℕ → V3 ℂ}
    (hx : ∀ G < d.N, ContinuousAt (fun t => (b t G).x) t0) (hy : ∀ G < d.N, ContinuousAt (fun t => (b t G).y) t0)
    (hz : ∀ G < d.N, ContinuousAt (fun t => (b t G).z) t0) (G : ℕ) :
    ContinuousAt (fun t => (muField d mu (b t) G).x) t0 ∧ ContinuousAt (fun t => (muField d mu (b t) G).y) t0 ∧
      ContinuousAt (fun t => (muField d mu (b t) G).z) t0 := by
  have hf := fun r => continuousAt_transform d.Wf d.N hx hy hz r
  have hM : ∀ r, ContinuousAt (fun t => ((mu r).mulVec (transform d.Wf d.N (b t) r)).x) t0 ∧
      ContinuousAt (fun t => ((mu r).mulVec (transform d.Wf d.N (b t) r)).y) t0 ∧
      ContinuousAt (fun t => ((mu r).mulVec (transform d.Wf d.N (b t) r)).z) t0 := by
    intro r
    obtain ⟨h1, h2, h3⟩ := hf r
    refine ⟨?_, ?_, ?_⟩
    · have := continuousAt_mulVec (mu r) h1 h2 h3 ⟨1, 0, 0⟩
      simpa [herm] using this
    · have := continuousAt_mulVec (mu r) h1 h2 h3 ⟨0, 1, 0⟩
      simpa [herm] using this
    · have := continuousAt_mulVec (mu r) h1 h2 h3 ⟨0, 0, 1⟩
      simpa [herm] using this
  obtain ⟨k1, k2, k3⟩ := continuousAt_transform d.Wb d.N (b := fun t r => (mu r).mulVec (transform d.Wf d.N (b t) r))
    (fun r _ => (hM r).1) (fun r _ => (hM r).2.1) (fun r _ => (hM r).2.2) G
  exact ⟨ContinuousAt.mul continuousAt_const k1, ContinuousAt.mul continuousAt_const k2, ContinuousAt.mul continuousAt_const k3⟩

end Mpb.Velocity

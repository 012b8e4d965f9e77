import Verif.MatGrid.FreqModel
import Verif.MatGrid.GradProps
import Verif.Velocity.Hellmann
import Verif.Velocity.Lemmas
import Verif.Field.EnergyProps
import Mathlib.Topology.Algebra.Monoid

/-! # Lemmas on the derivative of a frequency with respect to the dielectric function -/

namespace Mpb.MatGrid
open Mpb.Field Mpb.Maxwell Mpb.Maxwell.Spec Mpb.Velocity Spec Filter Topology

/-- The derivative of `f` when its differences are sums of differences of differentiable functions. -/
theorem hasDerivAt_of_diff {ι : Type} (l : List ι) (f : ℝ → ℝ) (t0 : ℝ) (m : ℝ → ℂ) (w : ι → ℝ → ℝ) (w' : ι → ℝ) (h : ι → ℝ → ℂ)
    (hm : ContinuousAt m t0) (hm1 : m t0 = 1) (hw : ∀ i ∈ l, HasDerivAt (w i) (w' i) t0) (hh : ∀ i ∈ l, ContinuousAt (h i) t0)
    (hk : ∀ᶠ t in 𝓝 t0, ((f t - f t0 : ℝ) : ℂ) * m t = (l.map fun i => ((w i t - w i t0 : ℝ) : ℂ) * h i t).sum) :
    HasDerivAt f (l.map fun i => w' i * (h i t0).re).sum t0 := by
  rw [hasDerivAt_iff_tendsto_slope]
  have hlim : Tendsto (fun t => ((l.map fun i => ((slope (w i) t0 t : ℝ) : ℂ) * h i t).sum / m t).re) (𝓝[≠] t0)
      (𝓝 (((l.map fun i => ((w' i : ℝ) : ℂ) * h i t0).sum / m t0).re)) := by
    refine (Complex.continuous_re.tendsto _).comp ?_
    refine Tendsto.div ?_ (hm.tendsto.mono_left nhdsWithin_le_nhds) (by rw [hm1]; exact one_ne_zero)
    refine tendsto_list_sum _ (fun i hi => ?_)
    refine Tendsto.mul ?_ ((hh i hi).tendsto.mono_left nhdsWithin_le_nhds)
    exact (Complex.continuous_ofReal.tendsto _).comp (hasDerivAt_iff_tendsto_slope.1 (hw i hi))
  have hv : ((l.map fun i => ((w' i : ℝ) : ℂ) * h i t0).sum / m t0).re = (l.map fun i => w' i * (h i t0).re).sum := by
    rw [hm1, div_one]
    clear hk hw hh hlim
    induction l with
    | nil => simp
    | cons a l ih => simp only [List.map_cons, List.sum_cons, Complex.add_re, ih, Complex.re_ofReal_mul]
  rw [hv] at hlim
  refine hlim.congr' ?_
  have hne : ∀ᶠ t in 𝓝 t0, m t ≠ 0 := hm.eventually_ne (by rw [hm1]; exact one_ne_zero)
  have hk2 := hk.filter_mono (nhdsWithin_le_nhds (s := {x : ℝ | x ≠ t0}))
  have hn2 := hne.filter_mono (nhdsWithin_le_nhds (s := {x : ℝ | x ≠ t0}))
  filter_upwards [hk2, hn2, self_mem_nhdsWithin] with t h1 h2 h3
  have h3' : ((t - t0 : ℝ) : ℂ) ≠ 0 := by exact_mod_cast sub_ne_zero.2 h3
  have e : (l.map fun i => ((slope (w i) t0 t : ℝ) : ℂ) * h i t).sum = (l.map fun i => ((w i t - w i t0 : ℝ) : ℂ) * h i t).sum / ((t - t0 : ℝ) : ℂ) := by
    rw [eq_div_iff h3', ← List.sum_map_mul_right]
    congr 1
    apply List.map_congr_left
    intro i _
    rw [slope_def_field]
    push_cast
    push_cast at h3'
    field_simp
  have : (l.map fun i => ((slope (w i) t0 t : ℝ) : ℂ) * h i t).sum / m t = ((slope f t0 t : ℝ) : ℂ) := by
    rw [e, ← h1, slope_def_field]
    push_cast
    push_cast at h3'
    field_simp
  rw [this, Complex.ofReal_re]

/-- Specification: the same operator data with other tensors. -/
def Spec.withEps (d : OpData) (e : ℕ → HMat) : OpData := ⟨d.od, d.ld, d.nfb, d.kpg, e, d.muInv, d.Wf, d.Wb⟩

theorem bandMuinv_withEps (d : OpData) (e : ℕ → HMat) (x : ℕ → ℂ × ℂ) : bandMuinv (withEps d e) x = bandMuinv d x := rfl

theorem curlField_withEps (d : OpData) (e : ℕ → HMat) (K : ℕ → V3 ℝ) (x : ℕ → ℂ × ℂ) : curlField (withEps d e) K x = curlField d K x := rfl

theorem muinv_self {d : OpData} (hW : AdjointTransforms d) (u v : ℕ → ℂ × ℂ) :
    Maxwell.Spec.inner d.N u (bandMuinv d v) = Maxwell.Spec.inner d.N (bandMuinv d u) v := by
  unfold bandMuinv
  cases d.muInv with
  | none => rfl
  | some mu =>
    dsimp only
    rw [inner_symm d.N (bandMu d mu u) v]
    unfold bandMu
    rw [inner_plain hW, inner_plain hW, gridForm_symm]

theorem continuousAt_inner {t0 : ℝ} (N : ℕ) (a : ℕ → ℂ × ℂ) {x : ℝ → ℕ → ℂ × ℂ}
    (h1 : ∀ G < N, ContinuousAt (fun t => (x t G).1) t0) (h2 : ∀ G < N, ContinuousAt (fun t => (x t G).2) t0) :
    ContinuousAt (fun t => Maxwell.Spec.inner N a (x t)) t0 := by
  unfold Maxwell.Spec.inner
  refine tendsto_finsetSum _ (fun G hG => ?_)
  have e1 := h1 G (Finset.mem_range.1 hG)
  have e2 := h2 G (Finset.mem_range.1 hG)
  change ContinuousAt _ t0
  unfold hermT
  fun_prop

theorem continuousAt_cart {t0 : ℝ} (k : KData) {x : ℝ → ℂ × ℂ} (h1 : ContinuousAt (fun t => (x t).1) t0)
    (h2 : ContinuousAt (fun t => (x t).2) t0) :
    ContinuousAt (fun t => (cart k (x t)).x) t0 ∧ ContinuousAt (fun t => (cart k (x t)).y) t0 ∧ ContinuousAt (fun t => (cart k (x t)).z) t0 := by
  simp only [cart, V3.add_x, V3.add_y, V3.add_z, V3.smul_x, V3.smul_y, V3.smul_z]
  refine ⟨?_, ?_, ?_⟩ <;> fun_prop

theorem continuousAt_curl {t0 : ℝ} (d : OpData) {K : ℕ → V3 ℝ} (hK : ∀ G < d.N, IsBasis (K G) (d.kpg G)) {x : ℝ → ℕ → ℂ × ℂ}
    (h1 : ∀ G < d.N, ContinuousAt (fun t => (x t G).1) t0) (h2 : ∀ G < d.N, ContinuousAt (fun t => (x t G).2) t0) (r : ℕ) :
    ContinuousAt (fun t => (curlField d K (bandMuinv d (x t)) r).x) t0 ∧ ContinuousAt (fun t => (curlField d K (bandMuinv d (x t)) r).y) t0 ∧
      ContinuousAt (fun t => (curlField d K (bandMuinv d (x t)) r).z) t0 := by
  have hc := fun G hG => continuousAt_cart (d.kpg G) (h1 G hG) (h2 G hG)
  cases hmu : d.muInv with
  | none =>
    have e : ∀ t, curlField d K (bandMuinv d (x t)) = cf d K (fun G => cart (d.kpg G) (x t G)) := by
      intro t
      unfold bandMuinv
      rw [hmu]
      rfl
    simp only [e]
    exact continuousAt_cf d K (fun G hG => (hc G hG).1) (fun G hG => (hc G hG).2.1) (fun G hG => (hc G hG).2.2) r
  | some mu =>
    have e : ∀ t, curlField d K (bandMuinv d (x t)) = cf d K (muField d mu (fun G => cart (d.kpg G) (x t G))) := by
      intro t
      unfold bandMuinv
      rw [hmu]
      exact cf_bandMu hK mu _
    simp only [e]
    have hm := fun G => continuousAt_muField d mu (fun G hG => (hc G hG).1) (fun G hG => (hc G hG).2.1) (fun G hG => (hc G hG).2.2) G
    exact continuousAt_cf d K (fun G _ => (hm G).1) (fun G _ => (hm G).2.1) (fun G _ => (hm G).2.2) r

/-- The derivative of an eigenvalue with respect to a parameter of the dielectric function. -/
theorem eps_deriv {ι : Type} (D : ℝ → OpData) (t0 : ℝ) (K : ℕ → V3 ℝ) (x : ℝ → ℕ → ℂ × ℂ) (lam : ℝ → ℝ)
    (hs : ∀ t, D t = withEps (D t0) (D t).epsInv) (hW : AdjointTransforms (D t0)) (hK : ∀ G < (D t0).N, IsBasis (K G) ((D t0).kpg G))
    (heig : ∀ᶠ t in 𝓝 t0, ∀ G < (D t0).N, bandMaxwell (D t) (x t) G =
      ((lam t : ℂ) * (bandMuinv (D t) (x t) G).1, (lam t : ℂ) * (bandMuinv (D t) (x t) G).2))
    (hn : Maxwell.Spec.inner (D t0).N (x t0) (bandMuinv (D t0) (x t0)) = 1)
    (h1 : ∀ G < (D t0).N, ContinuousAt (fun t => (x t G).1) t0) (h2 : ∀ G < (D t0).N, ContinuousAt (fun t => (x t G).2) t0)
    (l : List ι) (idx : ι → ℕ) (hl : l.map idx = List.range (D t0).N) (w : ι → ℝ → ℝ) (w' : ι → ℝ) (hw : ∀ i ∈ l, HasDerivAt (w i) (w' i) t0)
    (heps : ∀ i ∈ l, ∀ t, ∀ a c : V3 ℂ, herm a (((D t).epsInv (idx i)).mulVec c) =
      herm a (((D t0).epsInv (idx i)).mulVec c) + ((w i t - w i t0 : ℝ) : ℂ) * herm a c) :
    HasDerivAt lam (1 / (D t0).N * (l.map fun i => w' i * (herm (curlField (D t0) K (bandMuinv (D t0) (x t0)) (idx i))
      (curlField (D t0) K (bandMuinv (D t0) (x t0)) (idx i))).re).sum) t0 := by
  set d := D t0 with hd
  set a := curlField d K (bandMuinv d (x t0)) with ha
  -- sums over the list are sums over the grid
  have hsum : ∀ F : ℕ → ℂ, ∑ r ∈ Finset.range d.N, F r = (l.map fun i => F (idx i)).sum := by
    intro F
    have : (l.map fun i => F (idx i)) = (l.map idx).map F := by rw [List.map_map]; rfl
    rw [this, hl]
    exact (Finset.sum_range F).trans (by rw [← List.sum_ofFn, ← List.map_coe_finRange_eq_range, List.map_map, List.ofFn_eq_map]; rfl)
  have key := hasDerivAt_of_diff l lam t0 (fun t => Maxwell.Spec.inner d.N (x t0) (bandMuinv d (x t))) w w'
    (fun i t => (1 / (d.N : ℂ)) * herm (a (idx i)) (curlField d K (bandMuinv d (x t)) (idx i))) ?_ hn hw ?_ ?_
  · convert key using 1
    rw [← List.sum_map_mul_left]
    congr 1
    apply List.map_congr_left
    intro i _
    have : (1 / (d.N : ℂ)) = ((1 / (d.N : ℝ) : ℝ) : ℂ) := by push_cast; rfl
    rw [this, Complex.re_ofReal_mul]
    ring
  · simp only [muinv_self hW]
    exact continuousAt_inner _ _ h1 h2
  · intro i _
    obtain ⟨c1, c2, c3⟩ := continuousAt_curl d hK h1 h2 (idx i)
    unfold herm
    fun_prop
  · have h0 : ∀ y, Maxwell.Spec.inner d.N y (bandMaxwell d (x t0)) = lam t0 * Maxwell.Spec.inner d.N y (bandMuinv d (x t0)) := by
      intro y
      unfold Maxwell.Spec.inner
      rw [Finset.mul_sum]
      refine Finset.sum_congr rfl (fun G hG => ?_)
      have := heig.self_of_nhds G (Finset.mem_range.1 hG)
      rw [← hd] at this
      rw [this]
      unfold hermT
      ring
    filter_upwards [heig] with t ht
    have e1 : Maxwell.Spec.inner d.N (x t0) (bandMaxwell (D t) (x t)) = lam t * Maxwell.Spec.inner d.N (x t0) (bandMuinv d (x t)) := by
      unfold Maxwell.Spec.inner
      rw [Finset.mul_sum]
      refine Finset.sum_congr rfl (fun G hG => ?_)
      have := ht G (Finset.mem_range.1 hG)
      rw [this]
      have e : bandMuinv (D t) (x t) = bandMuinv d (x t) := by rw [hs t]; rfl
      rw [e]
      unfold hermT
      ring
    have e2 : Maxwell.Spec.inner d.N (x t0) (bandMaxwell (D t) (x t)) = gridForm d.N (D t).epsInv a (curlField d K (bandMuinv d (x t))) := by
      have hW' : AdjointTransforms (withEps d (D t).epsInv) := hW
      have := inner_bandMaxwell hW' (K := K) hK (x t0) (x t)
      rw [← hs t] at this
      have hN : (D t).N = d.N := by rw [hs t]; rfl
      rw [hN] at this
      rw [this]
      have e3 : ∀ y, curlField (D t) K (bandMuinv (D t) y) = curlField d K (bandMuinv d y) := by
        intro y
        rw [hs t]
        rfl
      rw [e3, e3]
    have e4 : gridForm d.N d.epsInv a (curlField d K (bandMuinv d (x t))) = lam t0 * Maxwell.Spec.inner d.N (x t0) (bandMuinv d (x t)) := by
      rw [← inner_bandMaxwell hW hK]
      have hsym : Maxwell.Spec.inner d.N (x t0) (bandMaxwell d (x t)) = (starRingEnd ℂ) (Maxwell.Spec.inner d.N (x t) (bandMaxwell d (x t0))) := by
        rw [inner_bandMaxwell hW hK, inner_bandMaxwell hW hK, gridForm_symm]
      rw [hsym, h0, map_mul, Complex.conj_ofReal, muinv_self hW, ← inner_symm]
    have e5 : gridForm d.N (D t).epsInv a (curlField d K (bandMuinv d (x t))) = gridForm d.N d.epsInv a (curlField d K (bandMuinv d (x t))) +
        (l.map fun i => ((w i t - w i t0 : ℝ) : ℂ) * ((1 / (d.N : ℂ)) * herm (a (idx i)) (curlField d K (bandMuinv d (x t)) (idx i)))).sum := by
      unfold gridForm
      rw [hsum, hsum, ← List.sum_map_mul_left, ← List.sum_map_mul_left, ← List.sum_map_add]
      congr 1
      apply List.map_congr_left
      intro i hi
      rw [heps i hi t]
      ring
    rw [e4, ← e2, e1] at e5
    push_cast at e5 ⊢
    linear_combination e5

end Mpb.MatGrid

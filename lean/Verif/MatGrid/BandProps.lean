import Verif.MatGrid.FreqCases
import Verif.Perturb.GradProps

/-! # Property C86 for the counted bands -/

namespace Mpb.MatGrid
open Mpb.Field Mpb.Maxwell Mpb.Maxwell.Spec Mpb.Velocity Mpb.Tensor Mpb.Invariance Mpb.Invariance.Spec Mpb.Perturb Mpb.Perturb.Spec Spec Filter Topology
open scoped ComplexOrder

/-- A tensor is known from the products. -/
theorem tensor_shift {A B : HMat} {s : ℝ} (h : ∀ x c : V3 ℂ, herm x (A.mulVec c) = herm x (B.mulVec c) + (s : ℂ) * herm x c) :
    A = ⟨B.m00 + s, B.m11 + s, B.m22 + s, B.m01, B.m02, B.m12⟩ := by
  have h00 := h ⟨1, 0, 0⟩ ⟨1, 0, 0⟩
  have h11 := h ⟨0, 1, 0⟩ ⟨0, 1, 0⟩
  have h22 := h ⟨0, 0, 1⟩ ⟨0, 0, 1⟩
  have h01 := h ⟨1, 0, 0⟩ ⟨0, 1, 0⟩
  have h02 := h ⟨1, 0, 0⟩ ⟨0, 0, 1⟩
  have h12 := h ⟨0, 1, 0⟩ ⟨0, 0, 1⟩
  simp [herm, HMat.mulVec] at h00 h11 h22 h01 h02 h12
  ext
  · simpa using congrArg Complex.re h00
  · simpa using congrArg Complex.re h11
  · simpa using congrArg Complex.re h22
  all_goals assumption

/-- C86 (partial, as `C86_gradient_partial`) for the bands counted from below: for every grid of the geometry and every value of it, let `lam t` be the squared
frequency of band `n` when that value is `t`.  Where the mode is not degenerate, the frequency is differentiable, and the number that the call adds is
`scalegrad` times its derivative.  Nothing is assumed about the way the mode changes. -/
theorem C86_bands_partial (P : Problem) (S : Shape) (hshape : S.nx = P.nx ∧ S.ny = P.ny ∧ S.nz = P.nz) (hS : S.Ok) (hinv : S.inv = false) (g : Geom)
    (hR : Resolved S g) (U : Mem) (objs : List Mat) (hda : DistinctArrays (getMaterialGrids objs g.dflt))
    (hgood : ∀ q : ℕ × ℕ × ℕ, q.1 < S.nx → q.2.1 < S.ny → q.2.2 < S.nz → GoodPoint g U objs (pointPos S g.size q))
    (hn : 0 < P.nfb) (hμ : ∀ r < P.nx * P.ny * P.nz, Tensor.Spec.PosDef (invMu P r))
    (p b numBands : ℕ) (H W0 buf buf2 : ℕ → ℂ) (freqs : ℕ → ℝ) (Vol : ℝ) (hV : 0 < Vol) (hb : b < numBands) (j0 : ℤ)
    (v : Arr) (hv : offset (getMaterialGrids objs g.dflt) ≤ v.len) (scalegrad : ℝ) :
    ∃ v', addGradient S g U (getMaterialGrids objs g.dflt) P.data p H W0 buf buf2 freqs Vol numBands j0 v scalegrad (b + 1) = some v' ∧
      v'.len = v.len ∧
      ∀ pre mg post, getMaterialGrids objs g.dflt = pre ++ mg :: post → ∀ i < mg.nx * mg.ny * mg.nz,
        ∀ other md a e n (lam : ℝ → ℝ), GridTensors S g U other md a mg i e → e ((U mg.arr).get i) = P.epsInv →
          (∀ t, BandIs (withTensors P (e t) P.muInv).data n (lam t)) → Simple P.data (lam ((U mg.arr).get i)) → 0 < lam ((U mg.arr).get i) →
          EigenBand P.data (band p H b) (lam ((U mg.arr).get i)) → freqs b = Real.sqrt (lam ((U mg.arr).get i)) →
          ∃ f', HasDerivAt (fun t => Real.sqrt (lam t)) f' ((U mg.arr).get i) ∧
            v'.get (offset pre + i) = v.get (offset pre + i) + scalegrad * f' := by
  obtain ⟨s1, s2, s3⟩ := hshape
  have hN : P.data.N = S.nx * S.ny * S.nz := by rw [s1, s2, s3]; rfl
  have hq : ∀ q ∈ visits S, q.pt.1 < S.nx ∧ q.pt.2.1 < S.ny ∧ q.pt.2.2 < S.nz := fun q hq => visit_in_cell hS hq
  obtain ⟨v', h1, h2, h3⟩ := gradLoop_deriv hinv hda j0 (eSquared P.data p H W0 buf buf2 freqs Vol b) (scalegrad * (-freqs b / 2) * (Vol / P.data.N))
    (visits S) (fun q hqm => hgood q.pt (hq q hqm).1 (hq q hqm).2.1 (hq q hqm).2.2) v hv
  refine ⟨v', ?_, h2, ?_⟩
  · unfold addGradient gradLoop
    rw [if_pos (by omega)]
    simp only [Nat.add_sub_cancel]
    exact h1
  intro pre mg post he i hi other md a e n lam hT he0 hband hs hpos hx hf
  obtain ⟨K, hK, -⟩ := data_isBasis P
  obtain ⟨w, w', hidx, hwd, hes, hsum⟩ := grid_weights S hS hinv g hR U objs hda hgood P.data p b H W0 buf buf2 freqs Vol hV scalegrad he hi hT he0 hN hK
  set t0 := (U mg.arr).get i with ht0
  have hvis : ∀ r < P.data.N, ∃ q ∈ visits S, q.idx = r := by
    intro r hr
    have : r ∈ (visits S).map Visit.idx := by rw [hidx]; exact List.mem_range.2 hr
    exact List.mem_map.1 this
  -- the visit of an address
  haveI : Inhabited Visit := ⟨⟨(0, 0, 0), 0, 0, 0⟩⟩
  choose! vis hvm hvi using hvis
  have hinj : ∀ q ∈ visits S, vis q.idx = q := by
    intro q hqm
    have hnd : ((visits S).map Visit.idx).Nodup := by rw [hidx]; exact List.nodup_range
    have hr : q.idx < P.data.N := by
      have : q.idx ∈ (visits S).map Visit.idx := List.mem_map_of_mem hqm
      rw [hidx] at this
      exact List.mem_range.1 this
    exact List.inj_on_of_nodup_map hnd (hvm _ hr) hqm (hvi _ hr)
  have hsh : ∀ r < P.data.N, ∀ t, e t r = ⟨(P.epsInv r).m00 + (w (vis r) t - w (vis r) t0), (P.epsInv r).m11 + (w (vis r) t - w (vis r) t0),
      (P.epsInv r).m22 + (w (vis r) t - w (vis r) t0), (P.epsInv r).m01, (P.epsInv r).m02, (P.epsInv r).m12⟩ := by
    intro r hr t
    have := hes (vis r) (hvm r hr) t
    rw [hvi r hr] at this
    exact tensor_shift this
  have key := derivative_amplitudes P hn (fun t => e (t0 + t)) (fun _ => P.muInv) (fun r _ => by simp only [add_zero]; rw [he0]) (fun r _ => rfl)
    (fun t r hr => hμ r hr) (fun r => ⟨w' (vis r), w' (vis r), w' (vis r), 0, 0, 0⟩) (fun _ => ⟨0, 0, 0, 0, 0, 0⟩) (fun r hr => by
      have hd : HasDerivAt (fun t => w (vis r) (t0 + t) - w (vis r) t0) (w' (vis r)) 0 := by
        have h4 : HasDerivAt (w (vis r)) (w' (vis r)) (t0 + 0) := by rw [add_zero]; exact hwd _ (hvm r hr)
        have h5 := h4.comp_const_add t0 0
        exact h5.sub_const _
      simp only [hsh r hr]
      exact ⟨hd.const_add _, hd.const_add _, hd.const_add _, hasDerivAt_const _ _, hasDerivAt_const _ _, hasDerivAt_const _ _⟩)
    (fun r _ => show TensorDeriv (fun _ => invMu P r) _ from const_deriv _)
    (lam := fun t => lam (t0 + t)) (n := n) (fun t => hband (t0 + t)) hK (by simpa using hs) (x := band p H b) (by simpa using hx)
  have z : (gridForm P.data.N (fun _ => (⟨0, 0, 0, 0, 0, 0⟩ : HMat)) (plainField P.data (band p H b)) (plainField P.data (band p H b))).re = 0 := by
    unfold gridForm
    simp [herm, HMat.mulVec]
  have hg : (gridForm P.data.N (fun r => (⟨w' (vis r), w' (vis r), w' (vis r), 0, 0, 0⟩ : HMat)) (curlField P.data K (bandMuinv P.data (band p H b)))
      (curlField P.data K (bandMuinv P.data (band p H b)))).re = 1 / (P.data.N : ℝ) * ((visits S).map fun q => w' q *
        (herm (curlField P.data K (bandMuinv P.data (band p H b)) q.idx) (curlField P.data K (bandMuinv P.data (band p H b)) q.idx)).re).sum := by
    have hl : ∀ F : ℕ → ℝ, ∑ r ∈ Finset.range P.data.N, F r = ((visits S).map fun q => F q.idx).sum := by
      intro F
      have : ((visits S).map fun q => F q.idx) = ((visits S).map Visit.idx).map F := by rw [List.map_map]; rfl
      rw [this, hidx]
      exact (Finset.sum_range F).trans (by rw [← List.sum_ofFn, ← List.map_coe_finRange_eq_range, List.map_map, List.ofFn_eq_map]; rfl)
    have h7 : ((visits S).map fun q => w' q * (herm (curlField P.data K (bandMuinv P.data (band p H b)) q.idx)
        (curlField P.data K (bandMuinv P.data (band p H b)) q.idx)).re) = (visits S).map fun q => (fun r => w' (vis r) *
        (herm (curlField P.data K (bandMuinv P.data (band p H b)) r) (curlField P.data K (bandMuinv P.data (band p H b)) r)).re) q.idx := by
      refine List.map_congr_left fun q hqm => ?_
      dsimp only
      rw [hinj q hqm]
    rw [h7]
    refine Eq.trans ?_ (congrArg (fun z => 1 / (P.data.N : ℝ) * z) (hl (fun r => w' (vis r) *
        (herm (curlField P.data K (bandMuinv P.data (band p H b)) r) (curlField P.data K (bandMuinv P.data (band p H b)) r)).re)))
    unfold gridForm
    rw [show (1 / (P.data.N : ℂ)) = ((1 / (P.data.N : ℝ) : ℝ) : ℂ) by push_cast; rfl, Complex.re_ofReal_mul, Complex.re_sum]
    congr 1
    refine Finset.sum_congr rfl fun r _ => ?_
    rw [herm_iso, Complex.re_ofReal_mul]
  rw [z, hg, mul_zero, add_zero] at key
  have key2 : HasDerivAt lam (1 / (P.data.N : ℝ) * ((visits S).map fun q => w' q *
        (herm (curlField P.data K (bandMuinv P.data (band p H b)) q.idx) (curlField P.data K (bandMuinv P.data (band p H b)) q.idx)).re).sum) t0 := by
    have h6 := (show HasDerivAt (fun t => lam (t0 + t)) _ (t0 - t0) by rw [sub_self]; exact key).comp_sub_const t0 t0
    simpa using h6
  refine ⟨_, key2.sqrt hpos.ne', ?_⟩
  rw [h3 pre mg post he i hi, hsum _ (Real.sqrt_pos.2 hpos) hf]

/-- The cell of one grid point with the permeability `diag(1, 1/2, 1)`, so that the two modes differ. -/
noncomputable def splitP (e : ℕ → HMat) : Problem := withTensors exP e (some fun _ => ⟨1, 1, 2, 0, 0, 0⟩)

theorem splitP_mu (e : ℕ → HMat) (x : ℕ → ℂ × ℂ) : bandMuinv (splitP e).data x 0 = (2 * (x 0).1, (x 0).2) := by
  have hk : (splitP e).data.kpg 0 = ⟨1, ⟨0, 0, -1⟩, ⟨0, 1, 0⟩⟩ := exP_kpg
  have hN : (splitP e).data.N = 1 := rfl
  have hWf : (splitP e).data.Wf 0 0 = 1 := exP_dft _
  have hWb : (splitP e).data.Wb 0 0 = 1 := exP_dft _
  have hm : (splitP e).data.muInv = some fun _ => ⟨1, 1, 2, 0, 0, 0⟩ := rfl
  unfold bandMuinv
  rw [hm]
  simp only
  unfold bandMu colOp transform
  rw [hN]
  simp only [Finset.sum_range_one, hWf, hWb, hk]
  refine Prod.ext ?_ ?_ <;> apply Complex.ext <;> simp [t2c, c2t, HMat.mulVec]

theorem splitP_curl (e : ℕ → HMat) (w : ℝ) (he : e 0 = ⟨w, w, w, 0, 0, 0⟩) (x : ℕ → ℂ × ℂ) :
    bandOp (splitP e).data x 0 = ((w : ℂ) * (x 0).1, (w : ℂ) * (x 0).2) := by
  have hk : (splitP e).data.kpg 0 = ⟨1, ⟨0, 0, -1⟩, ⟨0, 1, 0⟩⟩ := exP_kpg
  have hN : (splitP e).data.N = 1 := rfl
  have hWf : (splitP e).data.Wf 0 0 = 1 := exP_dft _
  have hWb : (splitP e).data.Wb 0 0 = 1 := exP_dft _
  have he' : (splitP e).data.epsInv = e := rfl
  unfold bandOp colOp transform
  rw [hN]
  simp only [Finset.sum_range_one, hWf, hWb, hk, he', he]
  refine Prod.ext ?_ ?_ <;> apply Complex.ext <;> simp [crossT2c, crossC2t, HMat.mulVec]

theorem splitP_op (e : ℕ → HMat) (w : ℝ) (he : e 0 = ⟨w, w, w, 0, 0, 0⟩) (x : ℕ → ℂ × ℂ) :
    bandMaxwell (splitP e).data x 0 = (2 * (w * (2 * (x 0).1)), w * (x 0).2) := by
  have h1 : bandMaxwell (splitP e).data x = bandMuinv (splitP e).data (bandOp (splitP e).data (bandMuinv (splitP e).data x)) := rfl
  rw [h1, splitP_mu, splitP_curl e w he, splitP_mu]

theorem splitP_mode (e : ℕ → HMat) (w : ℝ) (he : e 0 = ⟨w, w, w, 0, 0, 0⟩) (lam : ℝ) (X : ℕ → ℂ) :
    IsMode (splitP e).data lam X ↔ (X 0 ≠ 0 ∨ X 1 ≠ 0) ∧ 2 * (w * (2 * X 0)) = lam * (2 * X 0) ∧ w * X 1 = lam * X 1 := by
  have hN : (splitP e).data.N = 1 := rfl
  have hp : pairs X 0 = (X 0, X 1) := rfl
  rw [isMode_iff _ Nat.one_pos, band_pairs, hN]
  constructor
  · rintro ⟨⟨G, hG, h1⟩, h2⟩
    obtain rfl : G = 0 := by omega
    have h3 := h2 0 Nat.one_pos
    rw [splitP_op e w he, splitP_mu] at h3
    refine ⟨?_, congrArg Prod.fst h3, congrArg Prod.snd h3⟩
    by_contra hc
    push Not at hc
    exact h1 (Prod.ext hc.1 hc.2)
  · rintro ⟨h1, h2, h3⟩
    refine ⟨⟨0, Nat.one_pos, fun h => ?_⟩, fun G hG => ?_⟩
    · rcases h1 with h1 | h1
      · exact h1 (congrArg Prod.fst h)
      · exact h1 (congrArg Prod.snd h)
    · obtain rfl : G = 0 := by omega
      rw [splitP_op e w he, splitP_mu]
      exact Prod.ext h2 h3

theorem splitP_band (e : ℕ → HMat) (he : e 0 = ⟨1, 1, 1, 0, 0, 0⟩) : BandIs (splitP e).data 1 1 := by
  have hN : (splitP e).data.N = 1 := rfl
  constructor
  · refine ⟨fun _ a => if a = 1 then 1 else 0, fun z hz i => ?_, fun _ => ⟨1, le_rfl, (splitP_mode e 1 he _ _).2 (by simp)⟩⟩
    have := hz 1 (by rw [hN]; norm_num)
    rw [Fin.sum_univ_one] at this
    obtain rfl : i = 0 := Subsingleton.elim _ _
    simpa using this
  · rintro mu hmu ⟨X, -, hX⟩
    obtain ⟨nu, hle, hm⟩ := hX 0
    obtain ⟨h1, h2, h3⟩ := (splitP_mode e 1 he _ _).1 hm
    rcases h1 with h1 | h1
    · have : (2 : ℂ) = nu := by
        refine mul_right_cancel₀ (mul_ne_zero two_ne_zero h1) ?_
        rw [← h2]; push_cast; ring
      have : (2 : ℝ) = nu := by exact_mod_cast this
      linarith
    · have : ((1 : ℝ) : ℂ) = nu := mul_right_cancel₀ h1 h3
      have : (1 : ℝ) = nu := by exact_mod_cast this
      linarith

theorem splitP_simple (e : ℕ → HMat) (he : e 0 = ⟨1, 1, 1, 0, 0, 0⟩) : Simple (splitP e).data 1 := by
  have hN : (splitP e).data.N = 1 := rfl
  intro X Y hX hY
  obtain ⟨h1, h2, -⟩ := (splitP_mode e 1 he _ _).1 hX
  obtain ⟨-, k2, -⟩ := (splitP_mode e 1 he _ _).1 hY
  have z : ∀ c : ℂ, 2 * (((1 : ℝ) : ℂ) * (2 * c)) = ((1 : ℝ) : ℂ) * (2 * c) → c = 0 := by
    intro c hc
    push_cast at hc
    linear_combination (1 / 2 : ℂ) * hc
  have hX0 := z _ h2
  have hY0 := z _ k2
  have hX1 : X 1 ≠ 0 := by
    rcases h1 with h | h
    · exact absurd hX0 h
    · exact h
  refine ⟨Y 1 / X 1, fun a ha => ?_⟩
  rw [hN] at ha
  interval_cases a
  · rw [hX0, hY0, mul_zero]
  · rw [div_mul_cancel₀ _ hX1]

/-- Non-vacuity of `C86_bands_partial`: the homogeneous medium `ε = 1 + 11 u` of the grid at `u = 0`, with a permeability that separates the two modes.
Every hypothesis holds for the first band, and the number added for `scalegrad = 1` is the derivative of its frequency. -/
example (other : V3 ℝ → HMat × HMat) (W0 buf buf2 : ℕ → ℂ) (j0 : ℤ) : ∃ (P : Problem) (e : ℝ → ℕ → HMat) (lam : ℝ → ℝ) (v' : Arr) (f' : ℝ),
    GridTensors shape1 (geom1 (fun _ => true) true) (mem1 0) other md1 args1 (grid1 .uSum) 0 e ∧ e 0 = P.epsInv ∧
    (∀ t, BandIs (withTensors P (e t) P.muInv).data 1 (lam t)) ∧ lam 0 = 1 ∧ Simple P.data 1 ∧
    addGradient shape1 (geom1 (fun _ => true) true) (mem1 0) [grid1 .uSum] P.data 1 (fun a => if a = 1 then 1 else 0) W0 buf buf2 (fun _ => 1) 1 1 j0
      ⟨1, fun _ => 0⟩ 1 1 = some v' ∧ HasDerivAt (fun t => Real.sqrt (lam t)) f' 0 ∧ v'.get 0 = f' := by
  obtain ⟨D, h0, hw, hF⟩ := wave_family (fun _ => true) true (u := 0) (by norm_num) rfl other
  set e : ℝ → ℕ → HMat := fun t => (D t).epsInv with he
  have he0 : e 0 0 = ⟨1, 1, 1, 0, 0, 0⟩ := by
    have := h0 0
    simpa using this
  set P := splitP (e 0) with hP
  have hμ : ∀ r < 1, Tensor.Spec.PosDef (invMu P r) := by
    intro r _
    refine (posDef_iff _).2 ?_
    have e1 : Tensor.Spec.toMatrix (invMu P r) = Matrix.diagonal ![(1 : ℂ), 1, 2] := by
      ext i j
      fin_cases i <;> fin_cases j <;> simp [Tensor.Spec.toMatrix, invMu, hP, splitP, withTensors]
    rw [e1]
    refine Matrix.PosDef.diagonal fun i => ?_
    fin_cases i <;> simp
  have hex : ∀ t, ∃ lam, BandIs (withTensors P (e t) P.muInv).data 1 lam := fun t =>
    band_exists (withTensors P (e t) P.muInv) Nat.one_pos (fun r hr => hμ r hr) one_pos (by show 1 ≤ 1 * 1 * 1 * 2; norm_num)
  choose lam hlam using hex
  have hl1 : lam 0 = 1 := band_unique (hlam 0) (splitP_band (e 0) he0)
  have hs := splitP_simple (e 0) he0
  have hT : GridTensors shape1 (geom1 (fun _ => true) true) (mem1 0) other md1 args1 (grid1 .uSum) 0 e := ⟨hF.grid, hF.mesh, hF.diel⟩
  have hx : EigenBand P.data (band 1 (fun a => if a = 1 then 1 else 0) 0) 1 := by
    constructor
    · intro G hG
      have hN : P.data.N = 1 := rfl
      obtain rfl : G = 0 := by omega
      rw [hP, splitP_op (e 0) 1 he0, splitP_mu]
      simp [band]
    · show ∑ G ∈ Finset.range 1, _ = _
      rw [Finset.sum_range_one, hP, splitP_mu]
      simp [band, hermT]
  obtain ⟨v', h1, h2, h3⟩ := C86_bands_partial P shape1 ⟨rfl, rfl, rfl⟩ shape1_ok rfl (geom1 (fun _ => true) true) (geom1_resolved _) (mem1 0)
    [.grid (grid1 .uSum)] (geom1_distinct _ _) (fun q _ _ _ => geom1_good _ _ (by norm_num) _) Nat.one_pos hμ 1 0 1 (fun a => if a = 1 then 1 else 0)
    W0 buf buf2 (fun _ => 1) 1 one_pos (by omega) j0 ⟨1, fun _ => 0⟩
    (by rw [show (geom1 (fun _ => true) true).dflt = .medium from rfl, geom1_grids]; simp [offset, grid1]) 1
  rw [show (geom1 (fun _ => true) true).dflt = .medium from rfl, geom1_grids] at h1 h3
  have hm0 : ((mem1 0) (grid1 .uSum).arr).get 0 = 0 := rfl
  obtain ⟨f', hf, hv⟩ := h3 [] (grid1 .uSum) [] rfl 0 (by decide) other md1 args1 e 1 lam hT (by rw [hm0]; rfl) hlam (by rw [hm0, hl1]; exact hs)
    (by rw [hm0, hl1]; exact one_pos) (by rw [hm0, hl1]; exact hx) (by rw [hm0, hl1]; simp)
  rw [hm0] at hf
  exact ⟨P, e, lam, v', f', hT, rfl, hlam, hl1, hs, h1, hf, by simpa [offset] using hv⟩

end Mpb.MatGrid

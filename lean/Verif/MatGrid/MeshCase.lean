import Verif.MatGrid.FreqCases
import Verif.Invariance.Empty
import Verif.Perturb.Spec
import Verif.MatGrid.MatchCases

/-! # C86 with the default mesh: the gradient looks at the grid points only -/

namespace Mpb.MatGrid
open Mpb.Epsilon Mpb.Field Mpb.Maxwell Mpb.Maxwell.Spec Mpb.Velocity Mpb.Tensor Mpb.Invariance Mpb.Perturb.Spec Spec Filter Topology

/-- Two grid points along `x`. -/
def shape2 : Shape := ⟨2, 1, 1, false, 4⟩

theorem shape2_ok : shape2.Ok := ⟨by decide, by decide, by decide, fun h => by cases h⟩

/-- Storage for two tensors. -/
noncomputable def md2 : MData := ⟨2, 1, 1, fun _ _ => ⟨1, 1, 1, 0, 0, 0⟩, 2, 0, 1, none, 1⟩

/-- Slabs between the two grid points, at a distance of more than 1/8 of each (the grid points are at -1/2 and 0). -/
noncomputable def between (p : V3 ℝ) : Bool := open Classical in decide (1 / 8 < |p.x| ∧ 1 / 8 < |p.x + 1 / 2|)

/-- Vacuum. -/
noncomputable def vac : V3 ℝ → HMat × HMat := fun _ => isoEps 1

/-- The dielectric function of the slabs at lattice coordinate `r`. -/
theorem slab_eps (u t : ℝ) (r : V3 ℝ) : epsilonFunc (geom1 between false) (setMem (mem1 u) 0 0 t) vac r =
    isoEps (if between ⟨r.x - 1 / 2, 0, 0⟩ then t * 11 + 1 else 1) := by
  unfold epsilonFunc
  have hs : (geom1 between false).shift = id := rfl
  have hp : epsPos (geom1 between false) r = ⟨r.x - 1 / 2, 0, 0⟩ := by ext <;> simp [epsPos, geom1]
  rw [hs, id_eq, geom1_eps, hp]
  cases between ⟨r.x - 1 / 2, 0, 0⟩ <;> rfl

/-- Vacuum at the two grid points, the grid in the rest of their pixels. -/
theorem slab_center {i : ℕ} (hi : i < 2) : between ⟨(i : ℝ) * (1 / 2) - 1 / 2, 0, 0⟩ = false := by
  unfold between
  interval_cases i <;> norm_num

theorem slab_off {i : ℕ} (hi : i < 2) {d : ℝ} (hd : d = 1 / 4 ∨ d = -1 / 4 ∨ d = 1 / 6 ∨ d = -1 / 6) :
    between ⟨((i : ℝ) * (1 / 2) + d) - 1 / 2, 0, 0⟩ = true := by
  unfold between
  rcases hd with rfl | rfl | rfl | rfl <;> interval_cases i <;> norm_num [abs_of_pos, abs_of_neg]

/-- The moment mesh of two pixels of width 1/2. -/
noncomputable def mesh2 : List (V3 ℝ × ℝ) := [(⟨1 / 4, 0, 0⟩, 1 / 2), (⟨-1 / 4, 0, 0⟩, 1 / 2)]

theorem moment2 (fl : ℝ → ℝ) : Moment.getMomentMesh fl ⟨2, 1, 1⟩ M3.one (latticeGm M3.one) = some mesh2 := by
  have g : latticeGm (M3.one : M3 ℝ) = M3.one := by
    ext <;> simp [latticeGm, MpbData.inverse, M3.det, M3.one, M3.transpose, V3.smul, V3.cross]
  rw [g]
  have hd : Moment.maxDiam 1 ⟨2, 1, 1⟩ (M3.one : M3 ℝ) = 1 / 2 := by
    simp [Moment.maxDiam, M3.one]
  unfold Moment.getMomentMesh
  have hr : Moment.rankOf ⟨2, 1, 1⟩ = 1 := rfl
  have hm : Moment.meshR 1 = 1 / 2 := rfl
  simp only [hr, Moment.sphereQuad, Option.bind_some, hd, hm, List.map_cons, List.map_nil]
  rw [if_pos (by simp), if_pos (by norm_num [small]), if_pos (by
    intro e he
    simp only [List.mem_cons, List.not_mem_nil, or_false] at he
    rcases he with rfl | rfl <;> norm_num [small]), if_pos (by norm_num [small])]
  unfold mesh2
  norm_num [M3.one, V3.dot]

/-- The averaged tensor of the two pixels while the grid differs from vacuum. -/
theorem slab_voxel (u t : ℝ) {i : ℕ} (hi : i < 2) :
    voxel ⟨⟨3, 1, 1⟩, M3.one, mesh2, epsilonFunc (geom1 between false) (setMem (mem1 u) 0 0 t) vac, some fun _ => none⟩ 1 ⟨1 / 2, 1, 1⟩
      ⟨(i : ℝ) * (1 / 2), 0, 0⟩ = .ok (if |t * 11| > small then (fun w => ⟨w, w, w, 0, 0, 0⟩) ((1 + 2 / (t * 11 + 1)) / 3) else ⟨1, 1, 1, 0, 0, 0⟩) := by
  have hc := slab_center hi
  have ho := fun d hd => slab_off hi (d := d) hd
  have h14 := ho (1 / 4) (by simp)
  have h14' := ho (-1 / 4) (by simp)
  have h16 := ho (1 / 6) (by simp)
  have h16' := ho (-1 / 6) (by simp)
  set E := epsilonFunc (geom1 between false) (setMem (mem1 u) 0 0 t) vac with hE
  have e0 : E ⟨(i : ℝ) * (1 / 2), 0, 0⟩ = isoEps 1 := by rw [hE, slab_eps, hc]; rfl
  have e1 : E ⟨(i : ℝ) * (1 / 2) + 1 / 4, 0, 0⟩ = isoEps (t * 11 + 1) := by rw [hE, slab_eps, h14]; rfl
  have e2 : E ⟨(i : ℝ) * (1 / 2) + -1 / 4, 0, 0⟩ = isoEps (t * 11 + 1) := by rw [hE, slab_eps, h14']; rfl
  have e3 : E ⟨(i : ℝ) * (1 / 2) + 1 / 6, 0, 0⟩ = isoEps (t * 11 + 1) := by rw [hE, slab_eps, h16]; rfl
  have e4 : E ⟨(i : ℝ) * (1 / 2) + -1 / 6, 0, 0⟩ = isoEps (t * 11 + 1) := by rw [hE, slab_eps, h16']; rfl
  have hp : (getMesh ⟨3, 1, 1⟩).2 = 3 := by simp [getMesh]
  have hpc : (getMesh ⟨3, 1, 1⟩).1 = ⟨1, 0, 0⟩ := by ext <;> norm_num [getMesh]
  have hdiff : differs (isoEps 1).1 (isoEps (t * 11 + 1)).1 = decide (|t * 11| > small) := by
    unfold differs isoEps
    have : |1 - (t * 11 + 1)| = |t * 11| := by rw [← abs_neg]; ring_nf
    simp [this, small]
  have hdet : detectInterface E 1 ⟨1 / 2, 1, 1⟩ ⟨(i : ℝ) * (1 / 2), 0, 0⟩ = decide (|t * 11| > small) := by
    unfold detectInterface corners
    have a1 : (⟨(i : ℝ) * (1 / 2) + -1 / 2 * (1 / 2), 0 + 0 * 1, 0 + 0 * 1⟩ : V3 ℝ) = ⟨(i : ℝ) * (1 / 2) + -1 / 4, 0, 0⟩ := by ext <;> norm_num
    have a2 : (⟨(i : ℝ) * (1 / 2) + 1 / 2 * (1 / 2), 0 + 0 * 1, 0 + 0 * 1⟩ : V3 ℝ) = ⟨(i : ℝ) * (1 / 2) + 1 / 4, 0, 0⟩ := by ext <;> norm_num
    simp only [List.any_cons, List.any_nil, Bool.or_false, a1, a2, e0, e1, e2, hdiff, Bool.or_self]
  have hnorm : interfaceNormal E mesh2 M3.one ⟨(i : ℝ) * (1 / 2), 0, 0⟩ = ⟨0, 0, 0⟩ := by
    unfold interfaceNormal mesh2
    simp only [List.foldl_cons, List.foldl_nil, add_zero, e1, e2]
    ext <;> simp [isoEps, M3.one, M3.mulVec] <;> ring
  have havg : averageEpsInv E ⟨3, 1, 1⟩ ⟨1 / 2, 1, 1⟩ ⟨(i : ℝ) * (1 / 2), 0, 0⟩ (1 / ((3 : ℤ) : ℝ)) =
      (fun w => ⟨w, w, w, 0, 0, 0⟩) ((1 + 2 / (t * 11 + 1)) / 3) := by
    have hm : meshPoints ⟨3, 1, 1⟩ ⟨1 / 2, 1, 1⟩ ⟨(i : ℝ) * (1 / 2), 0, 0⟩ = [⟨(i : ℝ) * (1 / 2) + -1 / 6, 0, 0⟩, ⟨(i : ℝ) * (1 / 2), 0, 0⟩,
        ⟨(i : ℝ) * (1 / 2) + 1 / 6, 0, 0⟩] := by
      unfold meshPoints
      rw [hpc]
      have hl : loop3 (3 : ℤ).toNat (1 : ℤ).toNat (1 : ℤ).toNat = [(0, 0, 0), (1, 0, 0), (2, 0, 0)] := rfl
      simp only [hl, List.map_cons, List.map_nil]
      norm_num
    unfold averageEpsInv
    rw [hm]
    simp only [List.foldl_cons, List.foldl_nil, e0, e3, e4]
    have hz : (hAdd (hAdd (hAdd hZero (isoEps (t * 11 + 1)).2) (isoEps 1).2) (isoEps (t * 11 + 1)).2) =
        (fun w => (⟨w, w, w, 0, 0, 0⟩ : HMat)) (1 + 2 / (t * 11 + 1)) := by
      ext <;> simp [hAdd, hZero, isoEps] <;> first | rfl | (ring1)
    rw [hz, if_pos ⟨rfl, rfl, rfl⟩]
    ext <;> simp <;> ring
  unfold voxel
  dsimp only
  rw [hp, if_neg (by decide)]
  simp only [Option.bind_some, hdet, hnorm, e0]
  by_cases h : |t * 11| > small
  · rw [decide_eq_true h, if_pos rfl, if_pos h, if_neg (by norm_num [small]), havg]
  · rw [decide_eq_false h, if_neg h]
    simp [isoEps]

/-- The tensors of the slabs, from the set-up. -/
theorem slab_setup (fl : ℝ → ℝ) (u t : ℝ) : ∃ md', setupDielectric fl md2 M3.one ⟨3, 1, 1⟩ (epsilonFunc (geom1 between false) (setMem (mem1 u) 0 0 t) vac)
      (some fun _ => none) = some (.ok md') ∧ (|t * 11| > small → ∀ r < 2, md'.heap md'.epsInv r =
        (fun w => (⟨w, w, w, 0, 0, 0⟩ : HMat)) ((1 + 2 / (t * 11 + 1)) / 3)) := by
  have hvox := fun i (hi : i < 2) => slab_voxel u t hi
  have hpos : ∀ i j k : ℕ, j < 1 → k < 1 → (⟨(i : ℝ) * (1 / (md2.nx : ℝ)), (j : ℝ) * (1 / (md2.ny : ℝ)), (k : ℝ) * (1 / (md2.nz : ℝ))⟩ : V3 ℝ) =
      ⟨(i : ℝ) * (1 / 2), 0, 0⟩ := by
    intro i j k hj hk
    obtain rfl : j = 0 := by omega
    obtain rfl : k = 0 := by omega
    ext <;> simp [md2]
  have hs : (⟨1 / (md2.nx : ℝ), 1 / (md2.ny : ℝ), 1 / (md2.nz : ℝ)⟩ : V3 ℝ) = ⟨1 / 2, 1, 1⟩ := by ext <;> simp [md2]
  have hrk : (if md2.nz > 1 then 3 else if md2.ny > 1 then 2 else 1) = 1 := rfl
  unfold setupDielectric
  rw [show (⟨md2.nx, md2.ny, md2.nz⟩ : V3 ℕ) = ⟨2, 1, 1⟩ from rfl, moment2]
  simp only [Option.map_some]
  obtain ⟨md', h⟩ := setDielectric_total md2 ⟨⟨3, 1, 1⟩, M3.one, mesh2, epsilonFunc (geom1 between false) (setMem (mem1 u) 0 0 t) vac, some fun _ => none⟩
    (fun i j k hi hj hk => by rw [hs, hrk, hpos i j k hj hk]; exact ⟨_, hvox i hi⟩)
  refine ⟨md', by rw [h], fun ht r hr => ?_⟩
  obtain ⟨f, hf, -, -, -, -, -, -, e4, -⟩ := setDielectric_ok h
  obtain ⟨v1, v2⟩ := hf r 0 0 hr (by decide) (by decide)
  rw [hs, hrk, hpos r 0 0 one_pos one_pos, hvox r hr, if_pos ht] at v1
  have hi : (r * md2.ny + 0) * md2.nz + 0 = r := by simp [md2]
  rw [hi] at v2
  rw [e4, v2, ← Res.ok_inj v1]

/-- Two grid points, wavevector `(1, 0, 0)`. -/
noncomputable def twoP (e : ℕ → HMat) : Problem := ⟨2, 1, 1, 1, M3.one, ⟨1, 0, 0⟩, e, none⟩

theorem twoP_wave (e : ℕ → HMat) : waveAt (twoP e) 0 = ⟨1, 0, 0⟩ := by
  have g : latticeGm (M3.one : M3 ℝ) = M3.one := by
    ext <;> simp [latticeGm, MpbData.inverse, M3.det, M3.one, M3.transpose, V3.smul, V3.cross]
  unfold waveAt Problem.wave
  rw [show (twoP e).Rm = M3.one from rfl, g]
  ext <;> simp [twoP, M3.one, waveVec, V3.smul, harm]

/-- One planewave is a mode of a uniform medium. -/
theorem twoP_mode (e : ℕ → HMat) (w : ℝ) (he : ∀ r < 2, e r = ⟨w, w, w, 0, 0, 0⟩) : EigenBand (twoP e).data (band 1 unit2 0) w := by
  have hN : (twoP e).data.N = 2 := rfl
  have hmu : (twoP e).data.muInv = none := rfl
  have hb : ∀ G, 0 < G → band 1 unit2 0 G = (0, 0) := by
    intro G hG
    unfold band unit2
    refine Prod.ext ?_ ?_ <;> simp <;> omega
  constructor
  · intro G hG
    rw [bandMaxwell_none hmu, bandMuinv_none hmu, bandOp_uniform (twoP e) (c := w) (by rw [hN]; exact he) _ hG]
    rcases Nat.eq_zero_or_pos G with rfl | h
    · rw [twoP_wave]
      simp [V3.dot]
    · rw [hb G h]
      simp
  · rw [bandMuinv_none hmu]
    unfold Maxwell.Spec.inner
    rw [hN, Finset.sum_range_succ, Finset.sum_range_one, band_unit2, hb 1 one_pos]
    simp [hermT]

/-- C86 fails with the default mesh of three points in each pixel.  The slabs of the grid lie between the grid points, and the averaged inverse
dielectric constant is `(1 + 2/ε)/3`, `ε = 1 + 11 u`; the frequency of the mode changes with `u` at the rate `f' ≠ 0`.  `material_grids_addgradient`
looks only at the grid points, where there is vacuum, and adds nothing. -/
theorem C86_mesh_refuted (fl : ℝ → ℝ) (W0 buf buf2 : ℕ → ℂ) (j0 : ℤ) (v : Arr) (hv : 1 ≤ v.len) :
    ∃ (g : Geom) (e : ℝ → ℕ → HMat) (lam : ℝ → ℝ) (f' : ℝ) (v' : Arr), Resolved shape2 g ∧
      (∀ q, GoodPoint g (mem1 (1 / 11)) [.grid (grid1 .uSum)] q) ∧
      (∀ t, ∃ md', setupDielectric fl md2 M3.one ⟨3, 1, 1⟩ (epsilonFunc g (setMem (mem1 (1 / 11)) 0 0 t) vac) (some fun _ => none) = some (.ok md') ∧
        e t = md'.heap md'.epsInv) ∧
      (∀ᶠ t in 𝓝 (1 / 11), EigenBand (twoP (e t)).data (band 1 unit2 0) (lam t)) ∧
      HasDerivAt (fun t => Real.sqrt (lam t)) f' (1 / 11) ∧ f' ≠ 0 ∧
      addGradient shape2 g (mem1 (1 / 11)) (getMaterialGrids [.grid (grid1 .uSum)] g.dflt) (twoP (e (1 / 11))).data 1 unit2 W0 buf buf2
        (fun _ => Real.sqrt (lam (1 / 11))) 1 1 j0 v 1 1 = some v' ∧ v'.get 0 = v.get 0 := by
  have hd := slab_setup fl (1 / 11)
  choose md' hm hval using hd
  set e : ℝ → ℕ → HMat := fun t => (md' t).heap (md' t).epsInv with he
  set lam : ℝ → ℝ := fun t => (1 + 2 / (t * 11 + 1)) / 3 with hlam
  have hnear : ∀ᶠ t in 𝓝 (1 / 11 : ℝ), |t * 11| > small := by
    have hc : ContinuousAt (fun t : ℝ => |t * 11|) (1 / 11) := by fun_prop
    exact hc.eventually (lt_mem_nhds (by norm_num [small]))
  have a1 : HasDerivAt (fun t : ℝ => t * 11 + 1) 11 (1 / 11) := by
    have := ((hasDerivAt_id (1 / 11 : ℝ)).mul_const (11 : ℝ)).add_const (1 : ℝ)
    simpa using this
  have a2 : HasDerivAt lam ((2 * (-11 / (1 / 11 * 11 + 1) ^ 2)) / 3) (1 / 11) := by
    have h := (((a1.inv (by norm_num)).const_mul 2).const_add 1).div_const 3
    simp only [hlam, div_eq_mul_inv (2 : ℝ)]
    exact h
  have l0 : lam (1 / 11) = 2 / 3 := by norm_num [hlam]
  have a3 := a2.sqrt (by rw [l0]; norm_num)
  have hgood := geom1_good between false (u := 1 / 11) (by norm_num)
  obtain ⟨v', h1, h2, h3⟩ := gradLoop_deriv (S := shape2) rfl (geom1_distinct between false) j0
    (eSquared (twoP (e (1 / 11))).data 1 unit2 W0 buf buf2 (fun _ => Real.sqrt (lam (1 / 11))) 1 0)
    (1 * (-Real.sqrt (lam (1 / 11)) / 2) * (1 / (twoP (e (1 / 11))).data.N)) (visits shape2) (fun q _ => hgood _) v
    (by rw [show (geom1 between false).dflt = .medium from rfl, geom1_grids]; simpa [offset, grid1] using hv)
  refine ⟨geom1 between false, e, lam, _, v', ?_, hgood, fun t => ⟨md' t, hm t, rfl⟩, ?_, a3, ?_, ?_, ?_⟩
  · exact { size := by simp [geom1], nx := by simp [geom1, shape2], ny := by simp [geom1, shape2], nz := by simp [geom1, shape2],
            shift := fun p _ _ _ _ _ _ => rfl }
  · filter_upwards [hnear] with t ht
    exact twoP_mode (e t) _ (hval t ht)
  · have : 0 < Real.sqrt (lam (1 / 11)) := Real.sqrt_pos.2 (by rw [l0]; norm_num)
    refine div_ne_zero (by norm_num) (by positivity)
  · exact h1
  · have := h3 [] (grid1 .uSum) [] (by rw [show (geom1 between false).dflt = .medium from rfl, geom1_grids]; rfl) 0 (by decide)
    have hz : ((visits shape2).map fun q => eSquared (twoP (e (1 / 11))).data 1 unit2 W0 buf buf2 (fun _ => Real.sqrt (lam (1 / 11))) 1 0 q.idx *
        (1 * (-Real.sqrt (lam (1 / 11)) / 2) * (1 / (twoP (e (1 / 11))).data.N)) *
        dEps (geom1 between false) (mem1 (1 / 11)) (grid1 .uSum) 0 (pointPos shape2 (geom1 between false).size q.pt)).sum = 0 := by
      refine List.sum_eq_zero fun x hx => ?_
      obtain ⟨q, hq, rfl⟩ := List.mem_map.1 hx
      obtain ⟨b1, b2, b3⟩ := visit_in_cell shape2_ok hq
      have hp : between (pointPos shape2 (geom1 between false).size q.pt) = false := by
        have hc := slab_center b1
        have : (pointPos shape2 (geom1 between false).size q.pt).x = (q.pt.1 : ℝ) * (1 / 2) - 1 / 2 := by simp [pointPos, shape2, geom1]
        have hx : ∀ a b : V3 ℝ, a.x = b.x → between a = between b := fun a b h => by unfold between; rw [h]
        exact (hx _ ⟨(q.pt.1 : ℝ) * (1 / 2) - 1 / 2, 0, 0⟩ this).trans hc
      rw [geom1_dEps, hp]
      simp
    rw [hz] at this
    simpa [offset] using this

/-- `reset_epsilon` with the default mesh for a cell of two grid points along `x`. -/
noncomputable def resetMesh (fl : ℝ → ℝ) (g : Geom) (U : Mem) : Option (ℕ → HMat) :=
  match setupDielectric fl md2 M3.one ⟨3, 1, 1⟩ (epsilonFunc g U vac) (some fun _ => none) with
  | some (.ok md') => some (md'.heap md'.epsInv)
  | _ => none

/-- A file with the value 1 at both points. -/
def file2 : Target := ⟨⟨2, fun _ => 1⟩, 2, 1, 1⟩

theorem visits_shape2 : visits shape2 = [⟨(0, 0, 0), 0, 0, 0⟩, ⟨(1, 0, 0), 1, 0, 0⟩] := rfl

theorem target2 (i : ℕ) (hi : i < 2) : target shape2 file2 (i, 0, 0) = 1 := by
  have := C49_pixel file2.eps 2 1 1 1 i 0 0 hi (by omega) (by omega)
  exact this

/-- C87 fails with the default mesh: the slabs of `C86_mesh_refuted`, and a file with the dielectric constant 1 everywhere.  The objective changes
with `u` at the rate 33/8, the gradient returned is 0. -/
theorem C87_mesh_refuted (fl : ℝ → ℝ) (heev : Heev) (hh : HeevOk heev) (work : Arr) :
    ∃ (g : Geom) (val : ℝ) (grad : Arr), Resolved shape2 g ∧ GoodTarget file2 ∧ (∀ q, GoodPoint g (mem1 (1 / 11)) [.grid (grid1 .uSum)] q) ∧
      matchEps shape2 g (mem1 (1 / 11)) [grid1 .uSum] heev file2 (resetMesh fl g) 2 1 work true ⟨1, fun _ => 1 / 11⟩ = some (val, grad) ∧ grad.get 0 = 0 ∧
      ∃ F : ℝ → ℝ, F (1 / 11) = val ∧ HasDerivAt F (33 / 8) (1 / 11) ∧ ∀ᶠ t in 𝓝 (1 / 11),
        matchEps shape2 g (mem1 (1 / 11)) [grid1 .uSum] heev file2 (resetMesh fl g) 2 1 work false (setEntry ⟨1, fun _ => 1 / 11⟩ 0 t) = some (F t, work) := by
  set g := geom1 between false with hg
  have hdf : g.dflt = .medium := rfl
  have hT : GoodTarget file2 := ⟨by decide, by decide, by decide, by decide⟩
  have hgood := geom1_good between false (u := 1 / 11) (by norm_num)
  set eps : ℝ → ℝ := fun t => 3 / (1 + 2 / (t * 11 + 1)) with heps
  have hreset : ∀ t, |t * 11| > small → 0 < t * 11 + 1 → ∃ e, resetMesh fl g (setMem (mem1 (1 / 11)) 0 0 t) = some e ∧
      ∀ r < 2, meanMedium heev (e r) = some (eps t) := by
    intro t h1 h2
    obtain ⟨md', hm, hv⟩ := slab_setup fl (1 / 11) t
    refine ⟨md'.heap md'.epsInv, by unfold resetMesh; rw [hg, hm], fun r hr => ?_⟩
    have hpos : 0 < eps t := by
      simp only [heps]
      have : 0 < 2 / (t * 11 + 1) := by positivity
      positivity
    rw [hv h1 r hr]
    have := C85_isotropic hh hpos
    have e1 : (1 + 2 / (t * 11 + 1)) / 3 = 1 / eps t := by simp only [heps]; rw [one_div_div]
    dsimp only
    rw [e1]
    exact this
  have hself : setMem (mem1 (1 / 11)) 0 0 (1 / 11) = mem1 (1 / 11) := setMem_self (mem1 (1 / 11)) 0 0
  have he0 : ∀ i < 2, eps0At shape2 file2 (i, 0, 0) = some 1 := fun i hi => by
    rw [eps0_eq hT (q := (i, 0, 0)) hi one_pos one_pos, target2 i hi]
  have hdbl : ∀ j, shape2.doubled j = false := doubled_false rfl
  obtain ⟨e, hr, hm⟩ := hreset (1 / 11) (by norm_num [small]) (by norm_num)
  rw [hself] at hr
  -- the calls at the two grid points add nothing
  have hadd : ∀ (w : Arr) (i : ℕ) (s : ℝ), i < 2 → w.len = 1 → ∃ w', g.addPoint (mem1 (1 / 11)) [grid1 .uSum] w (pointPos shape2 g.size (i, 0, 0)) s = some w' ∧
      w'.len = 1 ∧ w'.get 0 = w.get 0 := by
    intro w i s hi hw
    obtain ⟨w', h1, h2, h3⟩ := addPoint_deriv (geom1_distinct between false) (hgood (pointPos shape2 g.size (i, 0, 0))) w
      (by rw [← hg, hdf, geom1_grids, hw]; simp [offset, grid1]) s
    rw [← hg, hdf, geom1_grids] at h1 h3
    refine ⟨w', h1, by rw [h2, hw], ?_⟩
    have := (h3 [] (grid1 .uSum) [] rfl 0 (by decide)).1
    have hp : between (pointPos shape2 g.size (i, 0, 0)) = false := by
      have hx : ∀ a b : V3 ℝ, a.x = b.x → between a = between b := fun a b h => by unfold between; rw [h]
      refine (hx _ ⟨(i : ℝ) * (1 / 2) - 1 / 2, 0, 0⟩ ?_).trans (slab_center hi)
      simp [pointPos, shape2, hg, geom1]
    rw [hg, geom1_dEps, ← hg, hp] at this
    simpa [offset] using this
  obtain ⟨w1, p1, p2, p3⟩ := hadd ⟨1, fun _ => 0⟩ 0 (2 * (1 / 2) * (eps (1 / 11) - 1)) (by omega) rfl
  obtain ⟨w2, q1, q2, q3⟩ := hadd w1 1 (2 * (1 / 2) * (eps (1 / 11) - 1)) (by omega) p2
  refine ⟨g, ((eps (1 / 11) - 1) * (eps (1 / 11) - 1) + (eps (1 / 11) - 1) * (eps (1 / 11) - 1)) * (1 / 2), w2, ?_, hT, hgood, ?_, by rw [q3, p3],
    fun t => ((eps t - 1) * (eps t - 1) + (eps t - 1) * (eps t - 1)) * (1 / 2), rfl, ?_, ?_⟩
  · exact { size := by simp [hg, geom1], nx := by simp [hg, geom1, shape2], ny := by simp [hg, geom1, shape2], nz := by simp [hg, geom1, shape2],
            shift := fun p _ _ _ _ _ _ => rfl }
  · unfold matchEps
    dsimp only
    rw [mem1_set]
    simp only [Option.bind_eq_bind, Option.bind_some, hr, if_true, Nat.cast_ofNat, visits_shape2, List.foldlM_cons, List.foldlM_nil, matchStep, hm 0 (by omega),
      hm 1 (by omega), he0 0 (by omega), he0 1 (by omega), p1, q1, hdbl, Bool.false_eq_true, if_false, Option.pure_def, zero_add]
  · have a1 : HasDerivAt (fun t : ℝ => t * 11 + 1) 11 (1 / 11) := by
      have := ((hasDerivAt_id (1 / 11 : ℝ)).mul_const (11 : ℝ)).add_const (1 : ℝ)
      simpa using this
    have a2 : HasDerivAt eps (33 / 8) (1 / 11) := by
      have h := (((((a1.inv (by norm_num)).const_mul 2).const_add 1).inv (by norm_num)).const_mul 3)
      have e3 : (3 * (-(2 * (-11 / (1 / 11 * 11 + 1) ^ 2)) / (1 + 2 * (fun t : ℝ => t * 11 + 1)⁻¹ (1 / 11)) ^ 2)) = 33 / 8 := by
        simp only [Pi.inv_apply]
        norm_num
      rw [e3] at h
      simp only [heps, div_eq_mul_inv (3 : ℝ), div_eq_mul_inv (2 : ℝ)]
      exact h
    have a3 := (((a2.sub_const 1).mul (a2.sub_const 1)).add ((a2.sub_const 1).mul (a2.sub_const 1))).mul_const (1 / 2 : ℝ)
    have e4 : eps (1 / 11) = 3 / 2 := by norm_num [heps]
    rw [e4] at a3
    have e5 : ((33 / 8 * (3 / 2 - 1) + (3 / 2 - 1) * (33 / 8) + (33 / 8 * (3 / 2 - 1) + (3 / 2 - 1) * (33 / 8))) * (1 / 2) : ℝ) = 33 / 8 := by norm_num
    rw [e5] at a3
    exact a3
  · have hnear : ∀ᶠ t in 𝓝 (1 / 11 : ℝ), |t * 11| > small := by
      have hc : ContinuousAt (fun t : ℝ => |t * 11|) (1 / 11) := by fun_prop
      exact hc.eventually (lt_mem_nhds (by norm_num [small]))
    have hnear2 : ∀ᶠ t in 𝓝 (1 / 11 : ℝ), 0 < t * 11 + 1 := by
      have hc : ContinuousAt (fun t : ℝ => t * 11 + 1) (1 / 11) := by fun_prop
      exact hc.eventually (lt_mem_nhds (by norm_num))
    filter_upwards [hnear, hnear2] with t h1 h2
    obtain ⟨e', hr', hm'⟩ := hreset t h1 h2
    have hset := set_setEntry ⟨1, fun _ => 1 / 11⟩ [grid1 .uSum] (mem1 (1 / 11)) (by simp [offset, grid1]) (mem1_alloc (1 / 11)) (by simp [DistinctArrays])
      (mem1_set (1 / 11)) (pre := []) (mg := grid1 .uSum) (post := []) rfl (i := 0) (by decide) t
    unfold matchEps
    dsimp only
    rw [show (setEntry ⟨1, fun _ => 1 / 11⟩ 0 t) = setEntry ⟨1, fun _ => 1 / 11⟩ (offset [] + 0) t from rfl, hset]
    simp only [Option.bind_eq_bind, Option.bind_some, show (grid1 .uSum).arr = 0 from rfl, hr', if_false, Bool.false_eq_true, Nat.cast_ofNat, visits_shape2,
      List.foldlM_cons, List.foldlM_nil, matchStep, hm' 0 (by omega), hm' 1 (by omega), he0 0 (by omega), he0 1 (by omega), hdbl, Option.pure_def, zero_add]

end Mpb.MatGrid

import Verif.MatGrid.FreqProps
import Verif.Velocity.Props

/-! # C86: a concrete structure, and the cases in which the gradient is not the derivative -/

namespace Mpb.MatGrid
open Mpb.Field Mpb.Maxwell Mpb.Maxwell.Spec Mpb.Velocity Mpb.Tensor Spec Filter Topology

/-- The grid of one value `u`, shown where `inside` says so, in a cell of size 1 in which `y` and `z` have no size. -/
noncomputable def geom1 (inside : V3 ℝ → Bool) (noX : Bool) : Geom :=
  ⟨fun p => if inside p then [(.grid (grid1 .uSum), ⟨1 / 2, 1 / 2, 1 / 2⟩)] else [], .medium, ⟨1, 1, 1⟩, ⟨noX, true, true⟩, id⟩

/-- Memory with the value `u`. -/
def mem1 (u : ℝ) : Mem := fun _ => ⟨1, fun _ => u⟩

theorem geom1_eps (inside : V3 ℝ → Bool) (noX : Bool) (u t : ℝ) (p : V3 ℝ) :
    (geom1 inside noX).eps (setMem (mem1 u) 0 0 t) p = if inside p then some (t * 11 + 1) else none := by
  change gridEps (setMem (mem1 u) 0 0 t) (if inside p then [(.grid (grid1 .uSum), ⟨1 / 2, 1 / 2, 1 / 2⟩)] else []) .medium
    (defaultPos ⟨noX, true, true⟩ p ⟨1, 1, 1⟩) = _
  cases inside p with
  | false => rfl
  | true =>
    have hv : visit (grid1 .uSum) .medium (defaultPos ⟨noX, true, true⟩ p ⟨1, 1, 1⟩) [(Mat.grid (grid1 .uSum), ⟨1 / 2, 1 / 2, 1 / 2⟩)] =
        some [(grid1 .uSum, ⟨1 / 2, 1 / 2, 1 / 2⟩)] := by
      simp [visit, visitRest, compatible]
    have hm := mapM_gridVal (U := setMem (mem1 u) 0 0 t) [(grid1 .uSum, ⟨1 / 2, 1 / 2, 1 / 2⟩)] (by
      intro l hl
      rw [List.mem_singleton] at hl
      subst hl
      exact goodLayer_setMem (goodLayer_grid1 _ _) _ _ _)
    unfold gridEps matgridVal
    simp only [if_true]
    simp only [hv, hm, Option.bind_eq_bind, Option.bind_some, Option.pure_def, Option.map_some, List.map_cons,
      List.map_nil, lval_grid1]
    simp [setMem, setEntry, combineKind, grid1]
    norm_num

theorem geom1_grids : getMaterialGrids [.grid (grid1 .uSum)] Mat.medium = [grid1 .uSum] := by simp [getMaterialGrids, addGrid]

theorem geom1_good (inside : V3 ℝ → Bool) (noX : Bool) {u : ℝ} (hu : u * 11 + 1 ≠ 0) (p : V3 ℝ) :
    GoodPoint (geom1 inside noX) (mem1 u) [.grid (grid1 .uSum)] p where
  objs := by
    intro x hx
    unfold geom1 at hx
    cases h : inside p <;> simp [h] at hx
    simp [hx]
  layers := by
    intro mg q hx
    unfold geom1 at hx
    cases h : inside p <;> simp [h] at hx
    obtain ⟨rfl, rfl⟩ := hx
    have := goodLayer_grid1 .uSum u
    simp only [one_div] at this
    exact this
  dflt := by intro mg h; cases h
  notSelf := by
    intro q rest h
    unfold geom1 at h
    cases h' : inside p <;> simp [h'] at h
  smooth := by
    intro mg ls us h hv hm
    have : mg = grid1 .uSum := by
      unfold geom1 at h
      cases h' : inside p <;> simp [h', gradGrid] at h
      exact h.symm
    subst this
    trivial
  nonzero := by
    intro e he
    have := geom1_eps inside noX u u p
    have e1 : setMem (mem1 u) 0 0 u = mem1 u := setMem_self (mem1 u) 0 0
    rw [e1, he] at this
    cases h : inside p <;> rw [h] at this <;> simp at this
    rw [this]
    exact hu

theorem geom1_dEps (inside : V3 ℝ → Bool) (noX : Bool) (u : ℝ) (p : V3 ℝ) :
    dEps (geom1 inside noX) (mem1 u) (grid1 .uSum) 0 p = if inside p then 11 else 0 := by
  unfold dEps
  have e : (grid1 .uSum).arr = 0 := rfl
  rw [e]
  simp only [geom1_eps]
  have hu : ((mem1 u) 0).get 0 = u := rfl
  rw [hu]
  cases inside p with
  | false => simp
  | true =>
    simp only [if_true, Option.getD_some]
    have := ((hasDerivAt_id u).mul_const (11 : ℝ)).add_const (1 : ℝ)
    simp only [id_eq, one_mul] at this
    exact this.deriv

/-- One grid point. -/
def shape1 : Shape := ⟨1, 1, 1, false, 2⟩

theorem shape1_ok : shape1.Ok := ⟨by decide, by decide, by decide, fun h => by cases h⟩

/-- Storage for one tensor. -/
noncomputable def md1 : MData := ⟨1, 1, 1, fun _ _ => ⟨1, 1, 1, 0, 0, 0⟩, 2, 0, 1, none, 1⟩

/-- A mesh of one point. -/
noncomputable def args1 : DielArgs := ⟨⟨1, 1, 1⟩, ⟨⟨1, 0, 0⟩, ⟨0, 1, 0⟩, ⟨0, 0, 1⟩⟩, [], fun _ => isoEps 1, none⟩

theorem args1_mesh : (getMesh args1.ms).2 = 1 := by unfold getMesh args1; norm_num

/-- The operator of one planewave with wavevector `(1, 0, 0)`. -/
theorem oneWave_eps (e : ℕ → HMat) (w : ℝ) (he : e 0 = ⟨w, w, w, 0, 0, 0⟩) (x : ℕ → ℂ × ℂ) :
    bandOp (withEps (oneWave none 0) e) x 0 = ((w : ℂ) * (x 0).1, (w : ℂ) * (x 0).2) := by
  have hk : ∀ G, (withEps (oneWave none 0) e).kpg G = ⟨1, ⟨0, 0, -1⟩, ⟨0, 1, 0⟩⟩ := by
    intro G
    have := kData_xy 0
    simpa [withEps, oneWave] using this
  have hN : (withEps (oneWave none 0) e).N = 1 := rfl
  have hei : (withEps (oneWave none 0) e).epsInv = e := rfl
  unfold bandOp colOp transform
  rw [hN]
  simp only [hk, Finset.sum_range_one, hei, he]
  refine Prod.ext ?_ ?_ <;> apply Complex.ext <;> simp [withEps, oneWave, crossC2t, crossT2c, HMat.mulVec]

/-- The light line of the homogeneous medium of the grid: `ω² = 1/ε`, `ε = 1 + 11 u`, as the value of the grid changes. -/
theorem wave_family (inside : V3 ℝ → Bool) (noX : Bool) {u : ℝ} (hu : 0 < u * 11 + 1)
    (hin : inside (epsPos (geom1 inside noX) ⟨0, 0, 0⟩) = true) (other : V3 ℝ → HMat × HMat) :
    ∃ D : ℝ → OpData, (∀ t, (D t).epsInv 0 = ⟨1 / (t * 11 + 1), 1 / (t * 11 + 1), 1 / (t * 11 + 1), 0, 0, 0⟩) ∧
      (∀ t, D t = withEps (oneWave none 0) (D t).epsInv) ∧
      GridFamily shape1 (geom1 inside noX) (mem1 u) other md1 args1 (grid1 .uSum) 0 u D (fun _ => ⟨1, 0, 0⟩) 1 0 (fun _ => unit2)
        (fun t => 1 / (t * 11 + 1)) := by
  have hd : ∀ t, ∃ md', setDielectric md1 ⟨args1.ms, args1.Rl, args1.moment, epsilonFunc (geom1 inside noX) (setMem (mem1 u) 0 0 t) other,
      args1.mepsilon⟩ = .ok md' ∧ md'.heap md'.epsInv 0 = ⟨1 / (t * 11 + 1), 1 / (t * 11 + 1), 1 / (t * 11 + 1), 0, 0, 0⟩ := by
    intro t
    obtain ⟨md', h⟩ := setDielectric_total md1 ⟨args1.ms, args1.Rl, args1.moment, epsilonFunc (geom1 inside noX) (setMem (mem1 u) 0 0 t) other,
      args1.mepsilon⟩ (fun i j k _ _ _ => ⟨_, by unfold voxel; dsimp only; rw [if_pos args1_mesh]⟩)
    refine ⟨md', h, ?_⟩
    obtain ⟨f, hf, -, -, -, -, -, -, e4, -⟩ := setDielectric_ok h
    obtain ⟨v1, v2⟩ := hf 0 0 0 (by decide) (by decide) (by decide)
    simp only [Nat.zero_mul, Nat.zero_add] at v2
    rw [e4, v2]
    unfold voxel at v1
    dsimp only at v1
    rw [if_pos args1_mesh] at v1
    rw [← Res.ok_inj v1]
    have hp : (⟨((0 : ℕ) : ℝ) * (1 / (md1.nx : ℝ)), ((0 : ℕ) : ℝ) * (1 / (md1.ny : ℝ)), ((0 : ℕ) : ℝ) * (1 / (md1.nz : ℝ))⟩ : V3 ℝ) = ⟨0, 0, 0⟩ := by
      ext <;> simp
    rw [hp]
    unfold epsilonFunc
    have hs : (geom1 inside noX).shift = id := rfl
    rw [hs, id_eq, geom1_eps, hin]
    rfl
  choose md' hm hv using hd
  have hN : ∀ e, (withEps (oneWave none 0) e).N = 1 := fun _ => rfl
  refine ⟨fun t => withEps (oneWave none 0) ((md' t).heap (md' t).epsInv), hv, fun t => rfl, ?_⟩
  have heig : ∀ t, bandMaxwell (withEps (oneWave none 0) ((md' t).heap (md' t).epsInv)) (band 1 unit2 0) 0 =
      (((1 / (t * 11 + 1) : ℝ) : ℂ) * (band 1 unit2 0 0).1, ((1 / (t * 11 + 1) : ℝ) : ℂ) * (band 1 unit2 0 0).2) := by
    intro t
    rw [bandMaxwell_none rfl, oneWave_eps _ _ (hv t)]
  exact
    { same := fun t => rfl
      grid := ⟨rfl, rfl, rfl⟩
      points := rfl
      mesh := args1_mesh
      diel := fun t => ⟨md' t, hm t, rfl⟩
      nfb := by simp [oneWave, withEps]
      hb := by omega
      adjoint := fun G _ r _ => by simp [oneWave, withEps]
      basis := fun G _ => kData_isBasis _
      eigen := by
        refine Filter.Eventually.of_forall (fun t bufs Xo R M hR hM G hG => ?_)
        rw [hN] at hG
        obtain rfl : G = 0 := by omega
        have hn : 0 < (withEps (oneWave none 0) ((md' t).heap (md' t).epsInv)).nfb := by simp [oneWave, withEps]
        obtain ⟨R', hR', h1, -⟩ := C04_bands _ 1 hn bufs unit2 Xo
        obtain ⟨M', hM', h2, -⟩ := C04_muinv_bands _ 1 hn bufs unit2 Xo
        obtain rfl : R' = R := by rw [hR'] at hR; exact Option.some.inj hR
        obtain rfl : M' = M := by rw [hM'] at hM; exact Option.some.inj hM
        rw [h1 0 (by omega) 0 (by rw [hN]; omega), h2 0 (by omega) 0 (by rw [hN]; omega), heig t, bandMuinv_none rfl]
      norm := fun bufs Xo M hM => by
        have hn : 0 < (withEps (oneWave none 0) ((md' u).heap (md' u).epsInv)).nfb := by simp [oneWave, withEps]
        obtain ⟨M', hM', h2, -⟩ := C04_muinv_bands _ 1 hn bufs unit2 Xo
        obtain rfl : M' = M := by rw [hM'] at hM; exact Option.some.inj hM
        unfold Maxwell.Spec.inner
        rw [hN, Finset.sum_range_one, h2 0 (by omega) 0 (by rw [hN]; omega), bandMuinv_none rfl, band_unit2]
        simp [hermT]
      cont1 := fun G _ => continuousAt_const
      cont2 := fun G _ => continuousAt_const
      pos := by simp only [one_div]; positivity }

theorem geom1_resolved (inside : V3 ℝ → Bool) : Resolved shape1 (geom1 inside true) where
  size := by simp [geom1]
  nx := by simp [geom1, shape1]
  ny := by simp [geom1, shape1]
  nz := by simp [geom1, shape1]
  shift := fun p _ _ _ _ _ _ => rfl

theorem geom1_distinct (inside : V3 ℝ → Bool) (noX : Bool) : DistinctArrays (getMaterialGrids [.grid (grid1 .uSum)] (geom1 inside noX).dflt) := by
  have : (geom1 inside noX).dflt = .medium := rfl
  rw [this, geom1_grids]
  simp [DistinctArrays]

theorem deriv_line : HasDerivAt (fun t : ℝ => Real.sqrt (1 / (t * 11 + 1))) (-11 / 2) 0 := by
  have a1 : HasDerivAt (fun t : ℝ => t * 11 + 1) 11 0 := by
    have := ((hasDerivAt_id (0 : ℝ)).mul_const (11 : ℝ)).add_const (1 : ℝ)
    simpa using this
  have a2 := (a1.inv (by norm_num)).sqrt (by norm_num)
  simp only [one_div]
  simpa using a2

/-- Non-vacuity of `C86_gradient_partial`: a homogeneous medium with `ε = 1 + 11 u` at `u = 0`, and its band `ω = ε^(-1/2)`.  Every hypothesis
holds; the number added for `scalegrad = 1` is the derivative, -11/2. -/
example (other : V3 ℝ → HMat × HMat) (W0 buf buf2 : ℕ → ℂ) (j0 : ℤ) :
    ∃ (d : OpData) (v' : Arr), addGradient shape1 (geom1 (fun _ => true) true) (mem1 0) [grid1 .uSum] d 1 unit2 W0 buf buf2 (fun _ => 1) 1 1 j0
      ⟨1, fun _ => 0⟩ 1 1 = some v' ∧ v'.get 0 = -11 / 2 := by
  obtain ⟨D, h0, hw, hF⟩ := wave_family (fun _ => true) true (u := 0) (by norm_num) rfl other
  obtain ⟨v', h1, h2, h3⟩ := C86_gradient_partial shape1 shape1_ok rfl (geom1 (fun _ => true) true) (geom1_resolved _) (mem1 0) [.grid (grid1 .uSum)]
    (geom1_distinct _ _) (fun q _ _ _ => geom1_good _ _ (by norm_num) _) (D 0) 1 0 1 unit2 W0 buf buf2 (fun _ => 1) 1 one_pos (by omega) j0
    ⟨1, fun _ => 0⟩ (by rw [show (geom1 (fun _ => true) true).dflt = .medium from rfl, geom1_grids]; simp [offset, grid1]) 1
  rw [show (geom1 (fun _ => true) true).dflt = .medium from rfl, geom1_grids] at h1 h3
  refine ⟨D 0, v', h1, ?_⟩
  obtain ⟨f', hf, hv⟩ := h3 [] (grid1 .uSum) [] rfl 0 (by decide) other md1 args1 D _ _ _ hF rfl rfl (by simp [mem1])
  have := hf.unique deriv_line
  subst this
  simpa [offset] using hv

theorem visits_shape1 : visits shape1 = [⟨(0, 0, 0), 0, 0, 0⟩] := rfl

/-- What one call adds in a cell of one grid point. -/
theorem added1 (inside : V3 ℝ → Bool) (noX : Bool) {u : ℝ} (hu : u * 11 + 1 ≠ 0) (d : OpData) (hd : d.N = 1) (W0 buf buf2 : ℕ → ℂ) (f : ℝ) (j0 : ℤ)
    (v : Arr) (hv : 1 ≤ v.len) :
    ∃ v', addGradient shape1 (geom1 inside noX) (mem1 u) [grid1 .uSum] d 1 unit2 W0 buf buf2 (fun _ => f) 1 1 j0 v 1 1 = some v' ∧
      v'.get 0 = v.get 0 + eSquared d 1 unit2 W0 buf buf2 (fun _ => f) 1 0 0 * (-f / 2) * (if inside ⟨0, 0, 0⟩ then 11 else 0) := by
  obtain ⟨v', h1, h2, h3⟩ := gradLoop_deriv (S := shape1) rfl (geom1_distinct inside noX) j0 (eSquared d 1 unit2 W0 buf buf2 (fun _ => f) 1 0)
    (1 * (-f / 2) * (1 / d.N)) (visits shape1) (fun q _ => geom1_good inside noX hu _) v
    (by rw [show (geom1 inside noX).dflt = .medium from rfl, geom1_grids]; simpa [offset, grid1] using hv)
  rw [show (geom1 inside noX).dflt = .medium from rfl, geom1_grids] at h1 h3
  refine ⟨v', h1, ?_⟩
  have := h3 [] (grid1 .uSum) [] rfl 0 (by decide)
  rw [visits_shape1] at this
  have hp : pointPos shape1 (geom1 inside noX).size (0, 0, 0) = ⟨0, 0, 0⟩ := by
    ext <;> simp [pointPos, shape1]
  simp only [List.map_cons, List.map_nil, List.sum_cons, List.sum_nil, add_zero, hp, geom1_dEps, offset, hd] at this
  simpa using this

/-- C86 fails in a direction that has a size but one grid point.  The dielectric function of the only grid point is taken at `x = -1/2`, where
the grid is; `material_grids_addgradient` looks at `x = 0`, where it is not.  The frequency of the band has derivative -11/2, and
nothing is added. -/
theorem C86_flat_refuted (other : V3 ℝ → HMat × HMat) (W0 buf buf2 : ℕ → ℂ) (j0 : ℤ) (v : Arr) (hv : 1 ≤ v.len) :
    ∃ (g : Geom) (D : ℝ → OpData) (v' : Arr), g.noSize.x = false ∧
      (∀ q, GoodPoint g (mem1 0) [.grid (grid1 .uSum)] q) ∧
      GridFamily shape1 g (mem1 0) other md1 args1 (grid1 .uSum) 0 0 D (fun _ => ⟨1, 0, 0⟩) 1 0 (fun _ => unit2) (fun t => 1 / (t * 11 + 1)) ∧
      HasDerivAt (fun t : ℝ => Real.sqrt (1 / (t * 11 + 1))) (-11 / 2) 0 ∧
      addGradient shape1 g (mem1 0) (getMaterialGrids [.grid (grid1 .uSum)] g.dflt) (D 0) 1 unit2 W0 buf buf2 (fun _ => 1) 1 1 j0 v 1 1 = some v' ∧
      v'.get 0 = v.get 0 := by
  classical
  obtain ⟨D, h0, hw, hF⟩ := wave_family (fun p => decide (p.x < -1 / 4)) false (u := 0) (by norm_num) (by simp [epsPos, geom1]; norm_num) other
  have hN : (D 0).N = 1 := by rw [hw 0]; rfl
  obtain ⟨v', h1, h2⟩ := added1 (fun p => decide (p.x < -1 / 4)) false (u := 0) (by norm_num) (D 0) hN W0 buf buf2 1 j0 v hv
  refine ⟨geom1 (fun p => decide (p.x < -1 / 4)) false, D, v', rfl, geom1_good _ _ (by norm_num), hF, deriv_line, ?_, ?_⟩
  · rw [show (geom1 (fun p => decide (p.x < -1 / 4)) false).dflt = .medium from rfl, geom1_grids]
    exact h1
  · rw [h2]
    norm_num

/-- C86 fails when negative dielectric constants are allowed (`negative-epsilon-ok?`): the list of frequencies then holds `ω²`
(mpb/mpb.c:833-834), and `material_grids_addgradient` uses it as `ω`.  Here `ω² = 1/4`: the derivative of `ω²` is -11/16, that of `ω` is
-11/16, and the number added is -11/8. -/
theorem C86_negative_refuted (other : V3 ℝ → HMat × HMat) (W0 buf buf2 : ℕ → ℂ) (j0 : ℤ) (v : Arr) (hv : 1 ≤ v.len) :
    ∃ (g : Geom) (D : ℝ → OpData) (lam : ℝ → ℝ) (v' : Arr), Resolved shape1 g ∧
      (∀ q, GoodPoint g (mem1 (3 / 11)) [.grid (grid1 .uSum)] q) ∧
      GridFamily shape1 g (mem1 (3 / 11)) other md1 args1 (grid1 .uSum) 0 (3 / 11) D (fun _ => ⟨1, 0, 0⟩) 1 0 (fun _ => unit2) lam ∧
      lam (3 / 11) = 1 / 4 ∧ HasDerivAt lam (-11 / 16) (3 / 11) ∧ HasDerivAt (fun t : ℝ => Real.sqrt (lam t)) (-11 / 16) (3 / 11) ∧
      addGradient shape1 g (mem1 (3 / 11)) (getMaterialGrids [.grid (grid1 .uSum)] g.dflt) (D (3 / 11)) 1 unit2 W0 buf buf2
        (fun _ => lam (3 / 11)) 1 1 j0 v 1 1 = some v' ∧ v'.get 0 = v.get 0 - 11 / 8 := by
  obtain ⟨D, h0, hw, hF⟩ := wave_family (fun _ => true) true (u := 3 / 11) (by norm_num) rfl other
  have hN : (D (3 / 11)).N = 1 := by rw [hw]; rfl
  have a1 : HasDerivAt (fun t : ℝ => t * 11 + 1) 11 (3 / 11) := by
    have := ((hasDerivAt_id (3 / 11 : ℝ)).mul_const (11 : ℝ)).add_const (1 : ℝ)
    simpa using this
  have a2 : HasDerivAt (fun t : ℝ => 1 / (t * 11 + 1)) (-11 / 16) (3 / 11) := by
    have h := a1.inv (by norm_num)
    have e : (-11 : ℝ) / (3 / 11 * 11 + 1) ^ 2 = -11 / 16 := by norm_num
    rw [e] at h
    simp only [one_div]
    exact h
  have a3 : HasDerivAt (fun t : ℝ => Real.sqrt (1 / (t * 11 + 1))) (-11 / 16) (3 / 11) := by
    have h := a2.sqrt (by norm_num)
    have e : (1 : ℝ) / (3 / 11 * 11 + 1) = (1 / 2) ^ 2 := by norm_num
    rw [e, Real.sqrt_sq (by norm_num)] at h
    have e2 : (-11 / 16 : ℝ) / (2 * (1 / 2)) = -11 / 16 := by norm_num
    rwa [e2] at h
  have hl : (fun t : ℝ => 1 / (t * 11 + 1)) (3 / 11) = 1 / 4 := by norm_num
  obtain ⟨v', h1, h2⟩ := added1 (fun _ => true) true (u := 3 / 11) (by norm_num) (D (3 / 11)) hN W0 buf buf2 (1 / 4) j0 v hv
  -- the same call with the frequency adds the derivative
  obtain ⟨w, w1, w2⟩ := added1 (fun _ => true) true (u := 3 / 11) (by norm_num) (D (3 / 11)) hN W0 buf buf2 (1 / 2) j0 v hv
  obtain ⟨z, z1, -, z3⟩ := C86_gradient_partial shape1 shape1_ok rfl (geom1 (fun _ => true) true) (geom1_resolved _) (mem1 (3 / 11)) [.grid (grid1 .uSum)]
    (geom1_distinct _ _) (fun q _ _ _ => geom1_good _ _ (by norm_num) _) (D (3 / 11)) 1 0 1 unit2 W0 buf buf2 (fun _ => 1 / 2) 1 one_pos (by omega) j0
    v (by rw [show (geom1 (fun _ => true) true).dflt = .medium from rfl, geom1_grids]; simpa [offset, grid1] using hv) 1
  rw [show (geom1 (fun _ => true) true).dflt = .medium from rfl, geom1_grids] at z1 z3
  have hwz : w = z := Option.some.inj (w1.symm.trans z1)
  obtain ⟨f', hf, hz⟩ := z3 [] (grid1 .uSum) [] rfl 0 (by decide) other md1 args1 D _ _ _ hF rfl rfl (by
    have e : (1 : ℝ) / ((mem1 (3 / 11) (grid1 .uSum).arr).get 0 * 11 + 1) = (1 / 2) ^ 2 := by simp only [mem1]; norm_num
    rw [e, Real.sqrt_sq (by norm_num)])
  have hf' : f' = -11 / 16 := hf.unique a3
  rw [hf', ← hwz] at hz
  have hK : ∀ G < (D (3 / 11)).N, IsBasis ((fun _ => ⟨1, 0, 0⟩ : ℕ → V3 ℝ) G) ((D (3 / 11)).kpg G) := hF.basis
  have hE := fun f : ℝ => eSquared_eq (D (3 / 11)) (fun _ => ⟨1, 0, 0⟩) hK 1 unit2 W0 buf buf2 (fun _ => f) 1 0 (r := 0) (by rw [hN]; omega)
  rw [hE] at h2 w2
  refine ⟨geom1 (fun _ => true) true, D, fun t => 1 / (t * 11 + 1), v', geom1_resolved _, geom1_good _ _ (by norm_num), hF, hl, a2, a3, ?_, ?_⟩
  · rw [show (geom1 (fun _ => true) true).dflt = .medium from rfl, geom1_grids]
    simp only at hl
    simp only [hl]
    exact h1
  · rw [h2]
    have h5 : w.get 0 = v.get 0 + 1 * (-11 / 16) := by simpa [offset] using hz
    rw [h5] at w2
    simp only [Real.sqrt_one, div_one] at w2 ⊢
    norm_num at w2 ⊢
    linarith

/-- Four grid points along `x`, inversion-symmetric build: three stored points, `x = 3` is the mirror image of `x = 1`. -/
def half4 : Shape := ⟨4, 1, 1, true, 6⟩

/-- C86 fails in the inversion-symmetric build.  The call should add the contributions of the four grid points.  Whatever the uninitialised
index holds, it adds those of the three stored points once, or twice. -/
theorem C86_half_refuted (j0 : ℤ) (v : Arr) (hv : 1 ≤ v.len) :
    ∃ g : Geom, half4.Ok ∧ (∀ q, GoodPoint g (mem1 0) [.grid (grid1 .uSum)] q) ∧
    ∃ v', gradLoop half4 g (mem1 0) (getMaterialGrids [.grid (grid1 .uSum)] g.dflt) j0 (fun _ => 1) 1 v = some v' ∧
      v'.get 0 ≠ v.get 0 + ((List.range 4).map fun ix => dEps g (mem1 0) (grid1 .uSum) 0 (pointPos half4 g.size (ix, 0, 0))).sum := by
  have hgood := geom1_good (fun _ => true) false (u := 0) (by norm_num)
  have hlen : ∀ w : Arr, w.len = v.len → offset (getMaterialGrids [.grid (grid1 .uSum)] (geom1 (fun _ => true) false).dflt) ≤ w.len := by
    intro w hw
    rw [show (geom1 (fun _ => true) false).dflt = .medium from rfl, geom1_grids, hw]
    simpa [offset, grid1] using hv
  have step : ∀ (w : Arr) (p : V3 ℝ), w.len = v.len → ∃ w', (geom1 (fun _ => true) false).addPoint (mem1 0)
      (getMaterialGrids [.grid (grid1 .uSum)] (geom1 (fun _ => true) false).dflt) w p (1 * 1) = some w' ∧ w'.len = v.len ∧
      w'.get 0 = w.get 0 + 11 := by
    intro w p hw
    obtain ⟨w', h1, h2, h3⟩ := addPoint_deriv (geom1_distinct (fun _ => true) false) (hgood p) w (hlen w hw) (1 * 1)
    refine ⟨w', h1, by rw [h2, hw], ?_⟩
    have := (h3 [] (grid1 .uSum) [] geom1_grids 0 (by decide)).1
    rw [geom1_dEps] at this
    simpa [offset] using this
  have step2 : ∀ (w : Arr) (q : Visit), w.len = v.len → ∃ w', gradStep half4 (geom1 (fun _ => true) false) (mem1 0)
      (getMaterialGrids [.grid (grid1 .uSum)] (geom1 (fun _ => true) false).dflt) j0 (fun _ => 1) 1 w q = some w' ∧ w'.len = v.len ∧
      w'.get 0 = w.get 0 + (if half4.doubled j0 then 22 else 11) := by
    intro w q hw
    obtain ⟨a, a1, a2, a3⟩ := step w (pointPos half4 (geom1 (fun _ => true) false).size q.pt) hw
    obtain ⟨c, c1, c2, c3⟩ := step a (pointPos half4 (geom1 (fun _ => true) false).size (half4.mirror q.pt)) a2
    unfold gradStep
    rw [a1]
    simp only [Option.bind_eq_bind, Option.bind_some]
    cases half4.doubled j0 with
    | true =>
      simp only [if_true]
      exact ⟨c, c1, c2, by rw [c3, a3]; ring⟩
    | false =>
      simp only [Bool.false_eq_true, if_false]
      exact ⟨a, rfl, a2, a3⟩
  have hvis : ∃ q1 q2 q3, visits half4 = [q1, q2, q3] := ⟨_, _, _, rfl⟩
  obtain ⟨q1, q2, q3, hq⟩ := hvis
  obtain ⟨w1, x1, y1, z1⟩ := step2 v q1 rfl
  obtain ⟨w2, x2, y2, z2⟩ := step2 w1 q2 y1
  obtain ⟨w3, x3, y3, z3⟩ := step2 w2 q3 y2
  refine ⟨geom1 (fun _ => true) false, ⟨by decide, by decide, by decide, fun _ => by decide⟩, hgood, w3, ?_, ?_⟩
  · unfold gradLoop
    rw [hq]
    simp only [List.foldlM_cons, List.foldlM_nil, x1, x2, x3, Option.bind_eq_bind, Option.bind_some, Option.pure_def]
  · rw [z3, z2, z1]
    simp only [geom1_dEps, List.map_const', if_true, List.sum_replicate, List.length_range]
    cases half4.doubled j0 <;> simp <;> intro h <;> linarith

end Mpb.MatGrid

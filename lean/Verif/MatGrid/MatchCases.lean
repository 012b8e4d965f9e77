import Verif.MatGrid.MatchProps

/-! # C87: `reset_epsilon` without averaging, concrete cases, and the inversion-symmetric build -/

namespace Mpb.MatGrid
open Mpb.Field Mpb.Maxwell Mpb.Tensor Mpb.Epsilon Spec Filter Topology

/-- `reset_epsilon` (mpb/epsilon.c) as far as the dielectric function goes: `set_maxwell_dielectric` with the dielectric function of the
geometry. -/
noncomputable def resetEps (g : Geom) (other : V3 ℝ → HMat × HMat) (md : MData) (a : DielArgs) (U : Mem) : Option (ℕ → HMat) :=
  match setDielectric md ⟨a.ms, a.Rl, a.moment, epsilonFunc g U other, a.mepsilon⟩ with
  | .ok md' => some (md'.heap md'.epsInv)
  | _ => none

/-- With a mesh of one point the condition `Pixels` of C87 holds in the complex build. -/
theorem pixels_reset {S : Shape} (hS : S.Ok) (hinv : S.inv = false) {g : Geom} (hR : Resolved S g) {heev : Heev} (hh : HeevOk heev)
    (other : V3 ℝ → HMat × HMat) (bg : V3 ℝ → ℝ) (hbg : ∀ p, meanMedium heev (other p).2 = some (bg p)) (md : MData)
    (hm : md.nx = S.nx ∧ md.ny = S.ny ∧ md.nz = S.nz) (a : DielArgs) (ha : (getMesh a.ms).2 = 1) :
    Pixels S g bg heev (resetEps g other md a) := by
  intro U hpos
  obtain ⟨md', h⟩ := setDielectric_total md ⟨a.ms, a.Rl, a.moment, epsilonFunc g U other, a.mepsilon⟩
    (fun i j k _ _ _ => ⟨_, by unfold voxel; dsimp only; rw [if_pos ha]⟩)
  obtain ⟨f, hf, -, -, -, -, -, -, e4, -⟩ := setDielectric_ok h
  obtain ⟨g1, g2, g3⟩ := hm
  refine ⟨md'.heap md'.epsInv, by unfold resetEps; rw [h], fun q hq => ?_⟩
  obtain ⟨h1, h2, h3⟩ := visit_in_cell hS hq
  have haddr : q.idx = (q.pt.1 * S.ny + q.pt.2.1) * S.nz + q.pt.2.2 := by
    rw [visits_full (by rw [hinv]; simp)] at hq
    obtain ⟨t, -, rfl⟩ := List.mem_map.1 hq
    rfl
  obtain ⟨v1, v2⟩ := hf q.pt.1 q.pt.2.1 q.pt.2.2 (by rw [g1]; exact h1) (by rw [g2]; exact h2) (by rw [g3]; exact h3)
  rw [haddr, e4, ← g2, ← g3, v2]
  unfold voxel at v1
  dsimp only at v1
  rw [if_pos ha, g1, g2, g3] at v1
  rw [← Res.ok_inj v1]
  unfold epsilonFunc
  rw [pos_eq hS hR h1 h2 h3]
  have hp := hpos q hq
  unfold shown
  cases hc : g.eps U (pointPos S g.size q.pt) with
  | none => exact hbg _
  | some e => exact C85_isotropic hh (hp e hc)

theorem geom1_sym (S : Shape) (noX : Bool) (bg : ℝ) : SymGeom S (geom1 (fun _ => true) noX) (fun _ => bg) := by
  intro U q _ _ _
  refine ⟨?_, rfl⟩
  unfold Geom.eps geom1
  simp only [if_true]
  rfl

theorem mem1_set (v : ℝ) : materialGridsSet ⟨1, fun _ => v⟩ [grid1 .uSum] 0 (mem1 v) = some (mem1 v) := by
  simp only [materialGridsSet, setOne, MGrid.ntot, grid1, mem1, Option.bind_eq_bind]
  simp only [Nat.mul_one, Nat.zero_add, le_refl, and_self, if_true, Option.bind_some, Option.some.injEq, ite_self]
  funext a
  by_cases h : a = 0
  · rw [h, Function.update_self, mem1]
  · rw [Function.update_of_ne h]

theorem mem1_alloc (v : ℝ) : Allocated (mem1 v) [grid1 .uSum] := by
  intro g hg
  rw [List.mem_singleton] at hg
  subst hg
  simp [mem1, MGrid.ntot, grid1]

theorem geom1_eps' (noX : Bool) (u : ℝ) (p : V3 ℝ) : (geom1 (fun _ => true) noX).eps (mem1 u) p = some (u * 11 + 1) := by
  have := geom1_eps (fun _ => true) noX u u p
  have e1 : setMem (mem1 u) 0 0 u = mem1 u := setMem_self (mem1 u) 0 0
  rw [e1] at this
  simpa using this

/-- Non-vacuity of `C87_gradient_partial`: a cell of one grid point with `ε = 1 + 11 u` at `u = 0`, and a file with the value 3.  The
objective is 4, its gradient -44. -/
example (other : V3 ℝ → HMat × HMat) (heev : Heev) (hh : HeevOk heev) (hbg : ∀ p, meanMedium heev (other p).2 = some 1) (work : Arr) :
    ∃ val grad, matchEps shape1 (geom1 (fun _ => true) true) (mem1 0) [grid1 .uSum] heev ⟨⟨1, fun _ => 3⟩, 1, 1, 1⟩
      (resetEps (geom1 (fun _ => true) true) other md1 args1) 1 1 work true ⟨1, fun _ => 0⟩ = some (val, grad) ∧ val = 4 ∧ grad.get 0 = -44 := by
  have hT : GoodTarget ⟨⟨1, fun _ => 3⟩, 1, 1, 1⟩ := ⟨by decide, by decide, by decide, by decide⟩
  have hP := pixels_reset shape1_ok rfl (geom1_resolved (fun _ => true)) hh other (fun _ => 1) hbg md1 ⟨rfl, rfl, rfl⟩ args1 args1_mesh
  have ht : target shape1 ⟨⟨1, fun _ => 3⟩, 1, 1, 1⟩ (0, 0, 0) = 3 := by
    have := C49_pixel ⟨1, fun _ => 3⟩ 1 1 1 1 0 0 0 (by omega) (by omega) (by omega)
    exact this
  obtain ⟨epsInv, hr, hm⟩ := hP (mem1 0) (fun q _ e h => by rw [geom1_eps'] at h; rw [← Option.some.inj h]; norm_num)
  obtain ⟨w', f1, f2, f3⟩ := match_fold_grad shape1_ok (geom1_distinct (fun _ => true) true)
    (fun q _ _ _ => geom1_good (fun _ => true) true (u := 0) (by norm_num) _) hT 1 (visits shape1) (fun q hq => hq) hm 0 ⟨1, fun _ => 0⟩
    (by rw [show (geom1 (fun _ => true) true).dflt = .medium from rfl, geom1_grids]; simp [offset, grid1])
  rw [show (geom1 (fun _ => true) true).dflt = .medium from rfl, geom1_grids] at f1 f3
  refine ⟨4, w', ?_, rfl, ?_⟩
  · unfold matchEps
    dsimp only
    rw [mem1_set]
    simp only [Option.bind_eq_bind, Option.bind_some, hr, if_true, Nat.cast_one, div_one]
    rw [f1]
    simp only [Option.bind_some, visits_shape1, List.map_cons, List.map_nil, List.sum_cons, List.sum_nil, passVal, ht, shown, geom1_eps']
    rw [doubled_false rfl]
    norm_num
  · have := f3 [] (grid1 .uSum) [] rfl 0 (by decide)
    simp only [visits_shape1, List.map_cons, List.map_nil, List.sum_cons, List.sum_nil, passGrad, ht, shown, geom1_eps', geom1_dEps] at this
    rw [doubled_false rfl] at this
    simp only [offset, List.map_nil, List.sum_nil, Nat.zero_add] at this
    rw [this]
    norm_num

/-- The stored points of four points along `x`. -/
theorem visits_half4 : visits half4 = [⟨(0, 0, 0), 0, 0, 0⟩, ⟨(1, 0, 0), 1, 1, 0⟩, ⟨(2, 0, 0), 2, 2, 0⟩] := rfl

/-- A file with the values 1, 1, 1, 3: not symmetric under inversion. -/
def file4 : Target := ⟨⟨4, fun k => if k = 3 then 3 else 1⟩, 4, 1, 1⟩

theorem target4 (i : ℕ) (hi : i < 4) : target half4 file4 (i, 0, 0) = if i = 3 then 3 else 1 := by
  have := C49_pixel file4.eps 4 1 1 1 i 0 0 hi (by omega) (by omega)
  unfold target
  refine this.trans ?_
  interval_cases i <;> rfl

/-- C87 fails in the inversion-symmetric build when the file does not have that symmetry.  The structure is homogeneous (so symmetric) with
`ε = 1 + 11 u`, at `u = 0`, and the file holds 1, 1, 1, 3.  The objective is `F(u) = (3 (11 u)² + (11 u - 2)²)/4`, whose derivative is -11;
the gradient returned is 0: the mirror point is given the weight of the stored point (mpb/material_grid.c:960-965 uses the `scalegrad`
of 926). -/
theorem C87_half_refuted (heev : Heev) (hh : HeevOk heev) (work : Arr) :
    ∃ (g : Geom) (reset : Mem → Option (ℕ → HMat)) (val : ℝ) (grad : Arr), half4.Ok ∧ SymGeom half4 g (fun _ => 1) ∧ GoodTarget file4 ∧
      Pixels half4 g (fun _ => 1) heev reset ∧ (∀ q, GoodPoint g (mem1 0) [.grid (grid1 .uSum)] q) ∧
      matchEps half4 g (mem1 0) [grid1 .uSum] heev file4 reset 4 1 work true ⟨1, fun _ => 0⟩ = some (val, grad) ∧ grad.get 0 = 0 ∧
      ∃ F : ℝ → ℝ, F 0 = val ∧ HasDerivAt F (-11) 0 ∧
        ∀ t, 0 < t * 11 + 1 → matchEps half4 g (mem1 0) [grid1 .uSum] heev file4 reset 4 1 work false (setEntry ⟨1, fun _ => 0⟩ 0 t) = some (F t, work) := by
  have hok : half4.Ok := ⟨by decide, by decide, by decide, fun _ => by decide⟩
  have hT : GoodTarget file4 := ⟨by decide, by decide, by decide, by decide⟩
  set g := geom1 (fun _ => true) false with hgdef
  have hdf : g.dflt = .medium := rfl
  set reset : Mem → Option (ℕ → HMat) := fun U => some (fun _ => Tensor.Spec.iso (1 / (shown g U (fun _ => 1) ⟨0, 0, 0⟩))) with hreset
  have hsame : ∀ U p, g.eps U p = g.eps U ⟨0, 0, 0⟩ := by
    intro U p
    rw [hgdef]
    unfold Geom.eps geom1
    simp only [if_true]
    rfl
  have hP : Pixels half4 g (fun _ => 1) heev reset := by
    intro U hpos
    refine ⟨_, rfl, fun q hq => ?_⟩
    have h0 : 0 < shown g U (fun _ => 1) ⟨0, 0, 0⟩ := by
      unfold shown
      have := hpos q hq
      rw [hsame] at this
      cases h : g.eps U ⟨0, 0, 0⟩ with
      | none => exact one_pos
      | some e => exact this e h
    rw [C85_isotropic hh h0]
    unfold shown
    rw [hsame U (pointPos half4 g.size q.pt)]
  have hgood := geom1_good (fun _ => true) false (u := 0) (by norm_num)
  have hsh : ∀ t p, shown g (mem1 t) (fun _ => 1) p = t * 11 + 1 := by
    intro t p
    unfold shown
    rw [hgdef, geom1_eps']
    rfl
  obtain ⟨epsInv, hr, hm⟩ := hP (mem1 0) (fun q _ e h => by rw [hgdef, geom1_eps'] at h; rw [← Option.some.inj h]; norm_num)
  obtain ⟨w', f1, f2, f3⟩ := match_fold_grad hok (geom1_distinct (fun _ => true) false)
    (fun q _ _ _ => hgood _) hT (1 / 4) (visits half4) (fun q hq => hq) hm 0 ⟨1, fun _ => 0⟩
    (by rw [← hgdef, hdf, geom1_grids]; simp [offset, grid1])
  rw [← hgdef, hdf, geom1_grids] at f1 f3
  have d0 : half4.doubled ((0 : ℕ) : ℤ) = false := rfl
  have d1 : half4.doubled ((1 : ℕ) : ℤ) = true := rfl
  have d2 : half4.doubled ((2 : ℕ) : ℤ) = false := rfl
  have m1 : half4.mirror (1, 0, 0) = (3, 0, 0) := rfl
  have hval : ∀ t, ((visits half4).map (passVal half4 g (mem1 t) (fun _ => 1) file4)).sum = 3 * (t * 11) ^ 2 + (t * 11 - 2) ^ 2 := by
    intro t
    rw [visits_half4]
    simp only [List.map_cons, List.map_nil, List.sum_cons, List.sum_nil, passVal, hsh, d0, d1, d2, m1,
      target4 0 (by omega), target4 1 (by omega), target4 2 (by omega), target4 3 (by omega)]
    norm_num
    ring
  refine ⟨g, reset, 1, w', hok, geom1_sym _ _ _, hT, hP, hgood, ?_, ?_, fun t => (3 * (t * 11) ^ 2 + (t * 11 - 2) ^ 2) * (1 / 4), by norm_num, ?_, ?_⟩
  · unfold matchEps
    dsimp only
    rw [mem1_set]
    simp only [Option.bind_eq_bind, Option.bind_some, hr, if_true, Nat.cast_ofNat]
    rw [f1, hval]
    norm_num
  · have := f3 [] (grid1 .uSum) [] rfl 0 (by decide)
    rw [visits_half4] at this
    simp only [List.map_cons, List.map_nil, List.sum_cons, List.sum_nil, passGrad, hsh, d0, d1, d2, m1,
      target4 0 (by omega), target4 1 (by omega), target4 2 (by omega)] at this
    simp only [offset, List.map_nil, List.sum_nil, Nat.zero_add] at this
    rw [this]
    norm_num
  · have a1 : HasDerivAt (fun t : ℝ => t * 11) 11 0 := by
      have := (hasDerivAt_id (0 : ℝ)).mul_const (11 : ℝ)
      simpa using this
    have a2 := (((a1.pow 2).const_mul 3).add ((a1.sub_const 2).pow 2)).mul_const (1 / 4 : ℝ)
    rw [show (3 * (((2 : ℕ) : ℝ) * (0 * 11) ^ (2 - 1) * 11) + ((2 : ℕ) : ℝ) * (0 * 11 - 2) ^ (2 - 1) * 11) * (1 / 4 : ℝ) = -11 by norm_num] at a2
    exact a2
  · intro t ht
    have hset := set_setEntry ⟨1, fun _ => 0⟩ [grid1 .uSum] (mem1 0) (by simp [offset, grid1]) (mem1_alloc 0) (by simp [DistinctArrays]) (mem1_set 0)
      (pre := []) (mg := grid1 .uSum) (post := []) rfl (i := 0) (by decide) t
    have hsh' : ∀ p, shown g (setMem (mem1 0) 0 0 t) (fun _ => 1) p = t * 11 + 1 := by
      intro p
      unfold shown
      rw [hgdef, geom1_eps]
      rfl
    obtain ⟨epsInv', hr', hm'⟩ := hP (setMem (mem1 0) 0 0 t) (fun q _ e h => by rw [hgdef, geom1_eps] at h; rw [← Option.some.inj h]; exact ht)
    have hf := match_fold hok hT [grid1 .uSum] (1 / 4) (visits half4) (fun q hq => hq) hm' 0 work
    have hv : (visits half4).map (passVal half4 g (setMem (mem1 0) 0 0 t) (fun _ => 1) file4) = (visits half4).map (passVal half4 g (mem1 t) (fun _ => 1) file4) := by
      refine List.map_congr_left fun q _ => ?_
      unfold passVal
      simp only [hsh, hsh']
    rw [hv, hval] at hf
    unfold matchEps
    dsimp only
    rw [show (setEntry ⟨1, fun _ => 0⟩ 0 t) = setEntry ⟨1, fun _ => 0⟩ (offset [] + 0) t from rfl, hset]
    simp only [Option.bind_eq_bind, Option.bind_some, show (grid1 .uSum).arr = 0 from rfl, hr', if_false, Bool.false_eq_true, Nat.cast_ofNat]
    rw [hf]
    norm_num

end Mpb.MatGrid

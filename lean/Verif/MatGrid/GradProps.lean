import Verif.MatGrid.GradLemmas

/-! # Properties C50 (overlapping grids), C71: the gradient of the dielectric constant with respect to the grid values -/

namespace Mpb.MatGrid
open Mpb.Spec Spec

/-- Specification: the combination of the values `us` is differentiable: always for the mean; for the product if no value is 0; for the
minimum (with 1) if it is attained once. -/
def Spec.Smooth (kind : Kind) (us : List ℝ) : Prop :=
  match kind with
  | .uSum => True
  | .uProd => ∀ u ∈ us, u ≠ 0
  | .uMin => ∃ A x B, us = A ++ x :: B ∧ x < 1 ∧ (∀ a ∈ A, x < a) ∧ ∀ b ∈ B, x < b

theorem visitRest_mem {mg : MGrid} {dflt : Mat} {pd : V3 ℝ} (st : List (Mat × V3 ℝ)) {l : MGrid × V3 ℝ} (h : l ∈ visitRest mg dflt pd st) :
    (Mat.grid l.1, l.2) ∈ st ∨ (dflt = Mat.grid l.1 ∧ l.2 = pd) := by
  have hc : ∀ m g, compatible mg m = some g → m = Mat.grid g := by
    intro m g hm
    cases m with
    | grid h =>
      unfold compatible at hm
      simp only at hm
      split_ifs at hm
      rw [Option.some.inj hm]
    | _ => simp [compatible] at hm
  induction st with
  | nil =>
    right
    unfold visitRest at h
    cases hcd : compatible mg dflt with
    | none => rw [hcd] at h; simp at h
    | some g =>
      rw [hcd] at h
      simp only [List.mem_singleton] at h
      subst h
      exact ⟨hc _ _ hcd, rfl⟩
  | cons m st ih =>
    obtain ⟨m, p⟩ := m
    unfold visitRest at h
    cases hcd : compatible mg m with
    | none => rw [hcd] at h; simp at h
    | some g =>
      rw [hcd] at h
      simp only [List.mem_cons] at h
      rcases h with h | h
      · subst h
        left
        rw [hc _ _ hcd]
        simp
      · rcases ih h with h | h
        · left; simp [h]
        · exact Or.inr h

theorem visit_mem {mg : MGrid} {dflt : Mat} {pd : V3 ℝ} {st : List (Mat × V3 ℝ)} {ls : List (MGrid × V3 ℝ)} (hv : visit mg dflt pd st = some ls)
    {l : MGrid × V3 ℝ} (h : l ∈ ls) : (Mat.grid l.1, l.2) ∈ st ∨ (dflt = Mat.grid l.1 ∧ l.2 = pd) := by
  cases st with
  | nil =>
    unfold visit at hv
    rw [← Option.some.inj hv] at h
    exact visitRest_mem _ h
  | cons m st =>
    obtain ⟨m, p⟩ := m
    cases m with
    | grid g =>
      unfold visit at hv
      rw [← Option.some.inj hv] at h
      rcases List.mem_cons.1 h with h | h
      · subst h; simp
      · rcases visitRest_mem _ h with h | h
        · left; simp [h]
        · exact Or.inr h
    | _ => simp [visit] at hv

/-- The derivative of the combined value along one entry. -/
theorem combine_deriv {U : Mem} (kind : Kind) (ls : List (MGrid × V3 ℝ)) (hsm : Smooth kind (ls.map (lval U))) (scale : ℝ) (w : MGrid × V3 ℝ → ℝ) (t0 : ℝ) :
    ∃ f', HasDerivAt (fun t => combineKind kind (ls.map fun l => lval U l + (t - t0) * w l)) f' t0 ∧
      (ls.map fun l => layerScale kind (lval U l) (combineKind kind (ls.map (lval U)))
        (if kind = .uSum then scale / ls.length else scale) * w l).sum = scale * f' := by
  have e0 : ∀ t : ℝ, (ls.map fun l => lval U l + (t - t0) * w l) = (ls.map fun l => (lval U l, w l)).map fun p => p.1 + (t - t0) * p.2 := by
    intro t
    rw [List.map_map]
    rfl
  have e1 : ls.map (lval U) = (ls.map fun l => (lval U l, w l)).map Prod.fst := by rw [List.map_map]; rfl
  cases kind with
  | uSum =>
    refine ⟨((ls.map fun l => (lval U l, w l)).map Prod.snd).sum / ls.length, ?_, ?_⟩
    · unfold combineKind
      simp only [foldl_add, zero_add, List.length_map]
      simp only [e0]
      exact (hasDerivAt_listSum _ t0).div_const _
    · unfold layerScale
      simp only [if_true]
      rw [List.sum_map_mul_left, List.map_map]
      simp only [Function.comp_def]
      ring
  | uProd =>
    have hne : ∀ p ∈ ls.map fun l => (lval U l, w l), p.1 ≠ 0 := by
      intro p hp
      obtain ⟨l, hl, rfl⟩ := List.mem_map.1 hp
      exact hsm _ (List.mem_map.2 ⟨l, hl, rfl⟩)
    refine ⟨((ls.map fun l => (lval U l, w l)).map fun p => ((ls.map fun l => (lval U l, w l)).map Prod.fst).prod / p.1 * p.2).sum, ?_, ?_⟩
    · unfold combineKind
      simp only [foldl_mul, one_mul]
      simp only [e0]
      exact hasDerivAt_listProd _ t0 hne
    · unfold layerScale combineKind
      simp only [foldl_mul, one_mul]
      rw [List.map_map, ← List.sum_map_mul_left, List.map_map]
      simp only [Function.comp_def]
      congr 1
      apply List.map_congr_left
      intro l _
      have : (ls.map fun x => lval U x) = ls.map (lval U) := rfl
      simp only [this, reduceCtorEq, if_false]
      ring
  | uMin =>
    obtain ⟨A, x, B, hl, hx, hA, hB⟩ := hsm
    obtain ⟨lA, l2, rfl, hA', h2⟩ := List.map_eq_append_iff.1 hl
    obtain ⟨lx, lB, rfl, hx', hB'⟩ := List.map_eq_cons_iff.1 h2
    subst hx' hA' hB'
    have hmin : combineKind .uMin ((lA ++ lx :: lB).map (lval U)) = lval U lx := by
      unfold combineKind
      rw [List.map_append, List.map_cons]
      exact foldl_min_unique _ _ _ _ hx hA hB
    refine ⟨w lx, ?_, ?_⟩
    · unfold combineKind
      simp only [e0]
      rw [List.map_append, List.map_cons]
      refine hasDerivAt_listMin _ _ _ t0 hx ?_ ?_
      · intro p hp
        obtain ⟨l, hl, rfl⟩ := List.mem_map.1 hp
        exact hA _ (List.mem_map.2 ⟨l, hl, rfl⟩)
      · intro p hp
        obtain ⟨l, hl, rfl⟩ := List.mem_map.1 hp
        exact hB _ (List.mem_map.2 ⟨l, hl, rfl⟩)
    · rw [hmin]
      unfold layerScale
      simp only [reduceCtorEq, if_false]
      have hz : ∀ L : List (MGrid × V3 ℝ), (∀ u ∈ L.map (lval U), lval U lx < u) →
          (L.map fun l => (if lval U l = lval U lx then scale else 0) * w l).sum = 0 := by
        intro L hL
        apply List.sum_eq_zero
        intro y hy
        obtain ⟨l, hl, rfl⟩ := List.mem_map.1 hy
        rw [if_neg (hL _ (List.mem_map.2 ⟨l, hl, rfl⟩)).ne', zero_mul]
      rw [List.map_append, List.map_cons, List.sum_append, List.sum_cons, hz lA hA, hz lB hB, if_pos rfl]
      ring

/-- C50 (partial: the topmost object at the point is not made of the "nothing" material, see `C50_nothing_refuted`; points of `[-1,1]^3` in
the objects' boxes; where the combination is differentiable).  `U` is the memory of the grids' arrays.  Every call at a point adds, for
every grid of the geometry and every one of its values, `scalegrad` times the exact derivative of the dielectric constant at the point
with respect to that value, whatever the number of overlapping objects, and even if several of them show the same grid. -/
theorem C50_gradient_partial (U : Mem) (objs : List Mat) (dflt : Mat) (hda : DistinctArrays (getMaterialGrids objs dflt))
    (st : List (Mat × V3 ℝ)) (pd : V3 ℝ) (hst : ∀ x ∈ st, x.1 ∈ objs) (hgood : ∀ g p, (Mat.grid g, p) ∈ st → GoodLayer U (g, p))
    (hdef : ∀ g, dflt = Mat.grid g → GoodLayer U (g, pd)) (hself : ∀ p rest, st ≠ (Mat.self, p) :: rest)
    (mg : MGrid) (hmg : gradGrid st dflt = some mg)
    (hsm : ∀ ls us, visit mg dflt pd st = some ls → ls.mapM (gridVal U) = some us → Smooth mg.kind us)
    (v : Arr) (hv : offset (getMaterialGrids objs dflt) ≤ v.len) (scalegrad : ℝ) :
    ∃ v', addGradientPoint U v st dflt pd scalegrad (getMaterialGrids objs dflt) = some v' ∧ v'.len = v.len ∧
      ∀ pre g post, getMaterialGrids objs dflt = pre ++ g :: post → ∀ i < g.nx * g.ny * g.nz,
        ∃ f f', (∀ t, gridEps (setMem U g.arr i t) st dflt pd = some (f t)) ∧ HasDerivAt f f' ((U g.arr).get i) ∧
          v'.get (offset pre + i) = v.get (offset pre + i) + scalegrad * f' := by
  obtain ⟨hnd, hmem⟩ := C51_enumeration objs dflt
  -- the layers
  obtain ⟨ls, hls⟩ : ∃ ls, visit mg dflt pd st = some ls := by
    cases st with
    | nil => exact ⟨_, rfl⟩
    | cons m st =>
      obtain ⟨m, p⟩ := m
      cases m with
      | grid g => exact ⟨_, rfl⟩
      | _ => simp [gradGrid] at hmg
  have hG : ∀ l ∈ ls, GoodLayer U l := by
    intro l hl
    rcases visit_mem hls hl with h | ⟨h, h'⟩
    · exact hgood _ _ h
    · have := hdef _ h
      rw [← h'] at this
      exact this
  have hin : ∀ l ∈ ls, l.1 ∈ getMaterialGrids objs dflt := by
    intro l hl
    rw [hmem]
    rcases visit_mem hls hl with h | ⟨h, h'⟩
    · exact Or.inl (hst _ h)
    · exact Or.inr h
  have hsm' := hsm ls _ hls (mapM_gridVal ls hG)
  have hval : ∀ U' : Mem, (∀ l ∈ ls, GoodLayer U' l) →
      matgridVal U' st dflt pd mg = some (combineKind mg.kind (ls.map (lval U')), ls.length) := by
    intro U' hU
    unfold matgridVal
    simp [hls, mapM_gridVal ls hU]
  -- the dielectric constant
  have heps : ∀ U' : Mem, (∀ l ∈ ls, GoodLayer U' l) →
      gridEps U' st dflt pd = some (combineKind mg.kind (ls.map (lval U')) * (mg.epsMax - mg.epsMin) + mg.epsMin) := by
    intro U' hU
    have hv := hval U' hU
    unfold gridEps
    cases st with
    | nil =>
      cases dflt with
      | grid g =>
        simp only [gradGrid, Option.some.injEq] at hmg
        subst hmg
        simp only [hv, Option.map_some]
      | _ => simp [gradGrid] at hmg
    | cons m st =>
      obtain ⟨m, p⟩ := m
      cases m with
      | grid g =>
        simp only [gradGrid, Option.some.injEq] at hmg
        subst hmg
        simp only [hv, Option.map_some]
      | self => exact absurd rfl (hself p st)
      | _ => simp [gradGrid] at hmg
  obtain ⟨v', h1, h2, h3⟩ := foldlM_gradLayer hnd hda (gradScale mg ls.length scalegrad) mg.kind (combineKind mg.kind (ls.map (lval U))) ls hG hin
    (fun hk l hl => by
      rw [hk] at hsm'
      exact hsm' _ (List.mem_map.2 ⟨l, hl, rfl⟩)) v hv
  refine ⟨v', ?_, h2, fun pre g post he i hi => ?_⟩
  · unfold addGradientPoint
    simp only [hmg, hval U hG, hls, Option.bind_eq_bind, Option.bind_some]
    exact h1
  · obtain ⟨f', hf, hs⟩ := combine_deriv (U := U) mg.kind ls hsm' (scalegrad * (mg.epsMax - mg.epsMin))
      (fun l => if l.1.arr = g.arr then lwt l i else 0) ((U g.arr).get i)
    refine ⟨fun t => combineKind mg.kind (ls.map (lval (setMem U g.arr i t))) * (mg.epsMax - mg.epsMin) + mg.epsMin,
      f' * (mg.epsMax - mg.epsMin), fun t => heps _ (fun l hl => goodLayer_setMem (hG l hl) _ _ _), ?_, ?_⟩
    · have e : ∀ t, ls.map (lval (setMem U g.arr i t)) =
          ls.map fun l => lval U l + (t - (U g.arr).get i) * (if l.1.arr = g.arr then lwt l i else 0) := by
        intro t
        apply List.map_congr_left
        intro l hl
        exact lval_setMem (hG l hl) _ _ _
      simp only [e]
      exact (hf.mul_const _).add_const _
    · rw [h3 pre g post he i hi]
      have : gradScale mg ls.length scalegrad = if mg.kind = .uSum then scalegrad * (mg.epsMax - mg.epsMin) / ls.length else
          scalegrad * (mg.epsMax - mg.epsMin) := rfl
      rw [this, hs]
      ring

/-- A grid of one value. -/
def grid1 (kind : Kind) : MGrid := ⟨kind, 1, 12, 1, 1, 1, 1, 1, 0⟩

theorem goodLayer_grid1 (kind : Kind) (u : ℝ) : GoodLayer (fun _ => ⟨1, fun _ => u⟩) (grid1 kind, ⟨1 / 2, 1 / 2, 1 / 2⟩) := by
  constructor <;> simp [grid1] <;> norm_num

theorem lval_grid1 (kind : Kind) (U : Mem) : lval U (grid1 kind, ⟨1 / 2, 1 / 2, 1 / 2⟩) = (U 0).get 0 := by
  have := C49_pixel (U 0) 1 1 1 1 0 0 0 (by omega) (by omega) (by omega)
  simp only [CharP.cast_eq_zero, zero_add, Nat.cast_one, div_one] at this
  unfold lval grid1
  simp only
  rw [this]
  simp [sample, flat]

/-- Non-vacuity: two overlapping objects showing the same grid of one value 1/2, combined as a product. -/
example : let st := [(Mat.grid (grid1 .uProd), (⟨1 / 2, 1 / 2, 1 / 2⟩ : V3 ℝ)), (Mat.grid (grid1 .uProd), ⟨1 / 2, 1 / 2, 1 / 2⟩)]
    gradGrid st .medium = some (grid1 .uProd) ∧
    ∃ ls us, visit (grid1 .uProd) .medium ⟨0, 0, 0⟩ st = some ls ∧ ls.mapM (gridVal (fun _ => ⟨1, fun _ => 1 / 2⟩)) = some us ∧
      us = [1 / 2, 1 / 2] ∧ Smooth .uProd us := by
  refine ⟨rfl, [(grid1 .uProd, ⟨1 / 2, 1 / 2, 1 / 2⟩), (grid1 .uProd, ⟨1 / 2, 1 / 2, 1 / 2⟩)], [1 / 2, 1 / 2], ?_, ?_, rfl, ?_⟩
  · simp [visit, visitRest, compatible]
  · rw [mapM_gridVal]
    · simp only [List.map_cons, List.map_nil, lval_grid1]
    · intro l hl
      simp only [List.mem_cons, List.not_mem_nil, or_false, or_self] at hl
      subst hl
      exact goodLayer_grid1 _ _
  · intro u hu
    simp only [List.mem_cons, List.not_mem_nil, or_false, or_self] at hu
    subst hu
    norm_num

/-- C50 fails where an object of the "nothing" material shows a default material grid: the dielectric constant depends on the grid, with
derivative 11, but nothing is added to the gradient. -/
theorem C50_nothing_refuted (u : ℝ) (p : V3 ℝ) (v : Arr) (scalegrad : ℝ) :
    let U : Mem := fun _ => ⟨1, fun _ => u⟩
    let st := [(Mat.self, p)]
    let dflt := Mat.grid (grid1 .uSum)
    addGradientPoint U v st dflt ⟨1 / 2, 1 / 2, 1 / 2⟩ scalegrad (getMaterialGrids [.self] dflt) = some v ∧
    ∃ f, (∀ t, gridEps (setMem U 0 0 t) st dflt ⟨1 / 2, 1 / 2, 1 / 2⟩ = some (f t)) ∧ HasDerivAt f 11 u := by
  intro U st dflt
  refine ⟨by simp [addGradientPoint, gradGrid, st], fun t => t * 11 + 1, fun t => ?_, ?_⟩
  · have hv : visit (grid1 .uSum) dflt ⟨1 / 2, 1 / 2, 1 / 2⟩ [] = some [(grid1 .uSum, ⟨1 / 2, 1 / 2, 1 / 2⟩)] := by
      simp [visit, visitRest, compatible, dflt]
    have hm := mapM_gridVal (U := setMem U 0 0 t) [(grid1 .uSum, ⟨1 / 2, 1 / 2, 1 / 2⟩)] (by
      intro l hl
      rw [List.mem_singleton] at hl
      subst hl
      exact goodLayer_setMem (goodLayer_grid1 _ _) _ _ _)
    unfold gridEps matgridVal
    simp only [st, dflt] at *
    simp only [hv, hm, Option.bind_eq_bind, Option.bind_some, Option.pure_def, Option.map_some, List.map_cons,
      List.map_nil, lval_grid1]
    simp [setMem, setEntry, combineKind, grid1]
    norm_num
  · have := ((hasDerivAt_id u).mul_const (11 : ℝ)).add_const (1 : ℝ)
    simpa using this

/-- C50 fails for a product grid whose value is 0: the derivative of the dielectric constant is 11, and the code divides by 0. -/
theorem C50_product_zero_refuted (v : Arr) (scalegrad : ℝ) :
    let U : Mem := fun _ => ⟨1, fun _ => 0⟩
    let st := [(Mat.grid (grid1 .uProd), (⟨1 / 2, 1 / 2, 1 / 2⟩ : V3 ℝ))]
    addGradientPoint U v st .medium ⟨0, 0, 0⟩ scalegrad (getMaterialGrids [.grid (grid1 .uProd)] .medium) = none ∧
    ∃ f, (∀ t, gridEps (setMem U 0 0 t) st .medium ⟨0, 0, 0⟩ = some (f t)) ∧ HasDerivAt f 11 0 := by
  intro U st
  have hv : visit (grid1 .uProd) .medium ⟨0, 0, 0⟩ st = some [(grid1 .uProd, ⟨1 / 2, 1 / 2, 1 / 2⟩)] := by
    simp [visit, visitRest, compatible, st]
  have hg : GoodLayer U (grid1 .uProd, ⟨1 / 2, 1 / 2, 1 / 2⟩) := goodLayer_grid1 _ 0
  refine ⟨?_, fun t => t * 11 + 1, fun t => ?_, ?_⟩
  · have hm := mapM_gridVal (U := U) [(grid1 .uProd, ⟨1 / 2, 1 / 2, 1 / 2⟩)] (by
      intro l hl
      rw [List.mem_singleton] at hl
      subst hl
      exact hg)
    have hc := gridVal_eq hg
    rw [lval_grid1] at hc
    unfold gridVal linearInterpolate at hc
    have hgr : getMaterialGrids [.grid (grid1 .uProd)] .medium = [grid1 .uProd] := by simp [getMaterialGrids, addGrid]
    rw [hgr]
    unfold addGradientPoint
    have : gradGrid st .medium = some (grid1 .uProd) := rfl
    simp only [this]
    unfold matgridVal
    simp only [hv, hm, Option.bind_eq_bind, Option.bind_some, Option.pure_def, List.foldlM_cons]
    have hl : ∀ s uval, gradLayer U [grid1 .uProd] s (grid1 .uProd).kind uval v (grid1 .uProd, ⟨1 / 2, 1 / 2, 1 / 2⟩) = none := by
      intro s uval
      unfold gradLayer
      have hf : findOff (grid1 .uProd) [grid1 .uProd] = some 0 := by simp [findOff]
      simp only [hf, Option.bind_eq_bind, Option.bind_some]
      unfold addAt addInterpolateWeights
      simp only [hc, Option.bind_eq_bind, Option.bind_some]
      simp [scaleFor, grid1, U]
    rw [hl]
    rfl
  · have hm := mapM_gridVal (U := setMem U 0 0 t) [(grid1 .uProd, ⟨1 / 2, 1 / 2, 1 / 2⟩)] (by
      intro l hl
      rw [List.mem_singleton] at hl
      subst hl
      exact goodLayer_setMem hg _ _ _)
    unfold gridEps matgridVal
    simp only [st] at *
    simp only [hv, hm, Option.bind_eq_bind, Option.bind_some, Option.pure_def, Option.map_some, List.map_cons,
      List.map_nil, lval_grid1]
    simp [setMem, setEntry, combineKind, grid1]
    norm_num
  · have := ((hasDerivAt_id (0 : ℝ)).mul_const (11 : ℝ)).add_const (1 : ℝ)
    simpa using this

end Mpb.MatGrid

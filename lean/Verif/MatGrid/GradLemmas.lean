import Verif.MatGrid.ListProps
import Verif.MatGrid.InterpProps
import Mathlib.Analysis.Calculus.Deriv.Inv

/-! # Lemmas on the gradient at a point -/

namespace Mpb.MatGrid
open Mpb.Spec Spec

/-- Specification: the memory with entry `i` of array `a` replaced by `t`. -/
def Spec.setMem (U : Mem) (a i : ℕ) (t : ℝ) : Mem := Function.update U a (setEntry (U a) i t)

/-- Specification: a visited grid has positive sizes, an array of the right size, and the point is in `[-1,1]^3` of it. -/
structure Spec.GoodLayer (U : Mem) (l : MGrid × V3 ℝ) : Prop where
  nx : 0 < l.1.nx
  ny : 0 < l.1.ny
  nz : 0 < l.1.nz
  len : l.1.nx * l.1.ny * l.1.nz ≤ (U l.1.arr).len
  x : -1 ≤ l.2.x ∧ l.2.x ≤ 1
  y : -1 ≤ l.2.y ∧ l.2.y ≤ 1
  z : -1 ≤ l.2.z ∧ l.2.z ≤ 1

/-- The value of a layer. -/
noncomputable def lval (U : Mem) (l : MGrid × V3 ℝ) : ℝ := mirrorInterp (U l.1.arr) l.1.nx l.1.ny l.1.nz 1 l.2

/-- The weight of entry `i` of the layer's own grid. -/
noncomputable def lwt (l : MGrid × V3 ℝ) (i : ℕ) : ℝ :=
  wt l.1.ny l.1.nz 1 (axis l.2.x l.1.nx) (axis l.2.y l.1.ny) (axis l.2.z l.1.nz) i

theorem gridVal_eq {U : Mem} {l : MGrid × V3 ℝ} (h : GoodLayer U l) : gridVal U l = some (lval U l) :=
  C49_interp_partial _ _ _ _ _ _ h.nx h.ny h.nz (by omega) (by simpa using h.len) h.x h.y h.z

theorem goodLayer_setMem {U : Mem} {l : MGrid × V3 ℝ} (h : GoodLayer U l) (a i : ℕ) (t : ℝ) : GoodLayer (setMem U a i t) l := by
  refine ⟨h.nx, h.ny, h.nz, ?_, h.x, h.y, h.z⟩
  have : (setMem U a i t l.1.arr).len = (U l.1.arr).len := by
    unfold setMem
    by_cases hb : l.1.arr = a
    · rw [hb]; simp [setEntry]
    · rw [Function.update_of_ne hb]
  rw [this]
  exact h.len

/-- The value of a layer is affine in each entry of each array. -/
theorem lval_setMem {U : Mem} {l : MGrid × V3 ℝ} (h : GoodLayer U l) (a i : ℕ) (t : ℝ) :
    lval (setMem U a i t) l = lval U l + (t - (U a).get i) * (if l.1.arr = a then lwt l i else 0) := by
  split_ifs with hb
  · obtain ⟨x1, x2, x3, x4, -, -, -⟩ := axis_spec h.nx h.x.1 h.x.2
    obtain ⟨y1, y2, y3, y4, -, -, -⟩ := axis_spec h.ny h.y.1 h.y.2
    obtain ⟨z1, z2, z3, z4, -, -, -⟩ := axis_spec h.nz h.z.1 h.z.2
    have h1 := gridVal_eq h
    have h2 := gridVal_eq (goodLayer_setMem h a i t)
    unfold gridVal linearInterpolate at h1 h2
    have e : setMem U a i t l.1.arr = setEntry (U l.1.arr) i t := by
      unfold setMem
      rw [hb]; simp
    rw [e, combine_setEntry (by omega) (by simpa using h.len) ⟨x1, x2⟩ ⟨x3, x4⟩ ⟨y1, y2⟩ ⟨y3, y4⟩ ⟨z1, z2⟩ ⟨z3, z4⟩ i h1 t] at h2
    rw [← Option.some.inj h2, ← hb]
    rfl
  · unfold lval setMem
    rw [Function.update_of_ne hb]
    ring

theorem mapM_gridVal {U : Mem} (ls : List (MGrid × V3 ℝ)) (h : ∀ l ∈ ls, GoodLayer U l) :
    ls.mapM (gridVal U) = some (ls.map (lval U)) := by
  induction ls with
  | nil => rfl
  | cons l ls ih =>
    rw [List.mapM_cons, gridVal_eq (h l (by simp)), ih (fun l' hl => h l' (by simp [hl]))]
    rfl

/-- Entries outside the grid have weight 0. -/
theorem lwt_zero {U : Mem} {l : MGrid × V3 ℝ} (h : GoodLayer U l) {i : ℕ} (hi : l.1.ntot ≤ i) : lwt l i = 0 := by
  obtain ⟨x1, x2, x3, x4, -, -, -⟩ := axis_spec h.nx h.x.1 h.x.2
  obtain ⟨y1, y2, y3, y4, -, -, -⟩ := axis_spec h.ny h.y.1 h.y.2
  obtain ⟨z1, z2, z3, z4, -, -, -⟩ := axis_spec h.nz h.z.1 h.z.2
  have key : ∀ x y z : ℤ, 0 ≤ x ∧ x < l.1.nx → 0 ≤ y ∧ y < l.1.ny → 0 ≤ z ∧ z < l.1.nz →
      ¬ (flat l.1.ny l.1.nz 1 x y z).toNat = i := by
    intro x y z a b c
    obtain ⟨p, q⟩ := flat_range (stride := 1) (by omega) a b c
    unfold MGrid.ntot at hi
    rw [mul_one] at q
    omega
  unfold lwt wt
  simp only [if_neg (key _ _ _ ⟨x1, x2⟩ ⟨y1, y2⟩ ⟨z1, z2⟩), if_neg (key _ _ _ ⟨x3, x4⟩ ⟨y1, y2⟩ ⟨z1, z2⟩),
    if_neg (key _ _ _ ⟨x1, x2⟩ ⟨y3, y4⟩ ⟨z1, z2⟩), if_neg (key _ _ _ ⟨x3, x4⟩ ⟨y3, y4⟩ ⟨z1, z2⟩),
    if_neg (key _ _ _ ⟨x1, x2⟩ ⟨y1, y2⟩ ⟨z3, z4⟩), if_neg (key _ _ _ ⟨x3, x4⟩ ⟨y1, y2⟩ ⟨z3, z4⟩),
    if_neg (key _ _ _ ⟨x1, x2⟩ ⟨y3, y4⟩ ⟨z3, z4⟩), if_neg (key _ _ _ ⟨x3, x4⟩ ⟨y3, y4⟩ ⟨z3, z4⟩)]
  ring

/-- The number added per weight. -/
noncomputable def layerScale (kind : Kind) (u uval s : ℝ) : ℝ :=
  match kind with
  | .uMin => if u = uval then s else 0
  | .uProd => s * (uval / u)
  | .uSum => s

theorem findOff_eq (pre : List MGrid) (g : MGrid) (post : List MGrid) (h : g ∉ pre) : findOff g (pre ++ g :: post) = some (offset pre) := by
  induction pre with
  | nil => simp [findOff, offset]
  | cons p pre ih =>
    have hp : p ≠ g := fun e => h (by simp [e])
    rw [List.cons_append]
    unfold findOff
    rw [if_neg hp, ih (fun hm => h (by simp [hm])), offset_cons, Option.map_some, Nat.add_comm]

/-- Positions of different grids do not overlap. -/
theorem offset_disjoint {gs pre pre' post post' : List MGrid} {g g' : MGrid} (h : gs = pre ++ g :: post) (h' : gs = pre' ++ g' :: post')
    {i i' : ℕ} (hi : i < g.ntot) (hi' : i' < g'.ntot) (he : offset pre + i = offset pre' + i') : pre = pre' ∧ i = i' := by
  subst h
  induction pre generalizing pre' with
  | nil =>
    cases pre' with
    | nil => exact ⟨rfl, by simpa [offset] using he⟩
    | cons p pre' =>
      simp only [List.nil_append, List.cons_append, List.cons.injEq] at h'
      obtain ⟨rfl, -⟩ := h'
      rw [offset_cons] at he
      simp [offset] at he
      omega
  | cons q pre ih =>
    cases pre' with
    | nil =>
      simp only [List.nil_append, List.cons_append, List.cons.injEq] at h'
      obtain ⟨rfl, -⟩ := h'
      rw [offset_cons] at he
      simp [offset] at he
      omega
    | cons p pre' =>
      simp only [List.cons_append, List.cons.injEq] at h'
      obtain ⟨rfl, h2⟩ := h'
      rw [offset_cons, offset_cons] at he
      obtain ⟨a, b⟩ := ih (pre' := pre') (by omega) h2
      exact ⟨by rw [a], b⟩

/-- One layer of the gradient: at the position of entry `i` of grid `g` it adds the weight if the layer's grid is `g`. -/
theorem gradLayer_eq {U : Mem} {grids : List MGrid} (hnd : grids.Nodup) (hda : DistinctArrays grids) {l : MGrid × V3 ℝ} (h : GoodLayer U l)
    (hm : l.1 ∈ grids) (scale : ℝ) (kind : Kind) (uval : ℝ) (hk : kind = .uProd → lval U l ≠ 0) (v : Arr) (hv : offset grids ≤ v.len) :
    ∃ v', gradLayer U grids scale kind uval v l = some v' ∧ v'.len = v.len ∧
      ∀ pre g post, grids = pre ++ g :: post → ∀ i < g.ntot, v'.get (offset pre + i) = v.get (offset pre + i) +
        layerScale kind (lval U l) uval scale * (if l.1.arr = g.arr then lwt l i else 0) := by
  obtain ⟨x1, x2, x3, x4, -, -, -⟩ := axis_spec h.nx h.x.1 h.x.2
  obtain ⟨y1, y2, y3, y4, -, -, -⟩ := axis_spec h.ny h.y.1 h.y.2
  obtain ⟨z1, z2, z3, z4, -, -, -⟩ := axis_spec h.nz h.z.1 h.z.2
  obtain ⟨P, Q, hPQ⟩ := List.append_of_mem hm
  have hnotin : l.1 ∉ P := by
    intro hP
    rw [hPQ, List.nodup_append] at hnd
    exact hnd.2.2 _ hP _ (by simp) rfl
  have hoff : findOff l.1 grids = some (offset P) := by rw [hPQ]; exact findOff_eq P l.1 Q hnotin
  have hlen : offset P + l.1.ntot ≤ v.len := by
    rw [hPQ, offset_append, offset_cons] at hv
    omega
  have hvl : l.1.nx * l.1.ny * l.1.nz * 1 ≤ v.len - offset P := by
    rw [mul_one]; unfold MGrid.ntot at hlen; omega
  have hc := gridVal_eq h
  unfold gridVal linearInterpolate at hc
  -- what the call on the part of v does
  have hadd : addInterpolateWeights l.2 ⟨v.len - offset P, fun i => v.get (offset P + i)⟩ l.1.nx l.1.ny l.1.nz 1 scale (U l.1.arr) kind uval =
      some ⟨v.len - offset P, fun i => v.get (offset P + i) + layerScale kind (lval U l) uval scale * lwt l i⟩ := by
    have hsc := fun s => scatter_eq (data := ⟨v.len - offset P, fun i => v.get (offset P + i)⟩) (stride := 1) (by omega) hvl
      ⟨x1, x2⟩ ⟨x3, x4⟩ ⟨y1, y2⟩ ⟨y3, y4⟩ ⟨z1, z2⟩ ⟨z3, z4⟩ s
    unfold addInterpolateWeights
    simp only [hc, Option.bind_eq_bind, Option.bind_some]
    cases kind with
    | uMin =>
      unfold scaleFor layerScale
      simp only
      by_cases hu : lval U l = uval
      · simp only [hu, ne_eq, not_true_eq_false, if_false, if_true]
        exact hsc scale
      · simp only [hu, ne_eq, not_false_eq_true, if_true, if_false]
        simp
    | uProd =>
      unfold scaleFor layerScale
      simp only [if_neg (hk rfl)]
      exact hsc _
    | uSum =>
      unfold scaleFor layerScale
      exact hsc scale
  refine ⟨⟨v.len, fun i => if i < offset P then v.get i else v.get (offset P + (i - offset P)) +
    layerScale kind (lval U l) uval scale * lwt l (i - offset P)⟩, ?_, rfl, fun pre g post he i hi => ?_⟩
  · unfold gradLayer addAt
    simp only [hoff, Option.bind_eq_bind, Option.bind_some, hadd, Option.map_some]
  · simp only
    by_cases hg : l.1.arr = g.arr
    · -- the same grid
      have hpre : P = pre ∧ l.1 = g := by
        have hgm : g ∈ grids := by rw [he]; simp
        have hlg : l.1 = g := by
          by_contra hne
          have := hda
          unfold DistinctArrays at this
          rw [hPQ] at hgm
          rw [hPQ, List.pairwise_append, List.pairwise_cons] at this
          rcases List.mem_append.1 hgm with hm' | hm'
          · exact this.2.2 g hm' l.1 (by simp) hg.symm
          · rcases List.mem_cons.1 hm' with hm'' | hm''
            · exact hne hm''.symm
            · exact this.2.1.1 g hm'' hg
        subst hlg
        refine ⟨?_, rfl⟩
        have h0 : 0 < l.1.ntot := by omega
        -- l.1 occurs once
        have : l.1 ∉ pre := by
          intro hP
          rw [he, List.nodup_append] at hnd
          exact hnd.2.2 _ hP _ (by simp) rfl
        have e1 := findOff_eq pre l.1 post this
        rw [← he, hoff] at e1
        exact (offset_disjoint hPQ he (i := 0) (i' := 0) h0 h0 (by rw [Option.some.inj e1])).1
      obtain ⟨rfl, rfl⟩ := hpre
      rw [if_neg (by omega), if_pos hg]
      have : offset P + i - offset P = i := by omega
      rw [this]
    · rw [if_neg hg, mul_zero, add_zero]
      split_ifs with hlt
      · rfl
      · have hz : lwt l (offset pre + i - offset P) = 0 := by
          apply lwt_zero h
          by_contra hcon
          push Not at hcon
          have := offset_disjoint hPQ he hcon hi (by omega)
          have e1 := this.1
          subst e1
          rw [hPQ] at he
          have := List.append_cancel_left he
          simp only [List.cons.injEq] at this
          exact hg (by rw [this.1])
        rw [hz, mul_zero, add_zero]
        congr 1
        omega

/-- All layers. -/
theorem foldlM_gradLayer {U : Mem} {grids : List MGrid} (hnd : grids.Nodup) (hda : DistinctArrays grids) (scale : ℝ) (kind : Kind)
    (uval : ℝ) (ls : List (MGrid × V3 ℝ)) (h : ∀ l ∈ ls, GoodLayer U l) (hm : ∀ l ∈ ls, l.1 ∈ grids)
    (hk : kind = .uProd → ∀ l ∈ ls, lval U l ≠ 0) (v : Arr) (hv : offset grids ≤ v.len) :
    ∃ v', ls.foldlM (gradLayer U grids scale kind uval) v = some v' ∧ v'.len = v.len ∧
      ∀ pre g post, grids = pre ++ g :: post → ∀ i < g.ntot, v'.get (offset pre + i) = v.get (offset pre + i) +
        (ls.map fun l => layerScale kind (lval U l) uval scale * (if l.1.arr = g.arr then lwt l i else 0)).sum := by
  induction ls generalizing v with
  | nil => exact ⟨v, rfl, rfl, fun _ _ _ _ _ _ => by simp⟩
  | cons l ls ih =>
    obtain ⟨v1, a1, a2, a3⟩ := gradLayer_eq hnd hda (h l (by simp)) (hm l (by simp)) scale kind uval (fun hp => hk hp l (by simp)) v hv
    obtain ⟨v2, b1, b2, b3⟩ := ih (fun l' hl => h l' (by simp [hl])) (fun l' hl => hm l' (by simp [hl]))
      (fun hp l' hl => hk hp l' (by simp [hl])) v1 (by rw [a2]; exact hv)
    refine ⟨v2, ?_, b2.trans a2, fun pre g post he i hi => ?_⟩
    · rw [List.foldlM_cons, a1]; exact b1
    · rw [b3 pre g post he i hi, a3 pre g post he i hi, List.map_cons, List.sum_cons]
      ring

/-! Derivatives of the combinations. -/

theorem foldl_mul (us : List ℝ) (m : ℝ) : us.foldl (fun m u => m * u) m = m * us.prod := by
  induction us generalizing m with
  | nil => simp
  | cons u us ih => rw [List.foldl_cons, ih, List.prod_cons, mul_assoc]

theorem foldl_add (us : List ℝ) (m : ℝ) : us.foldl (fun m u => m + u) m = m + us.sum := by
  induction us generalizing m with
  | nil => simp
  | cons u us ih => rw [List.foldl_cons, ih, List.sum_cons, add_assoc]

theorem hasDerivAt_affine (c w t0 : ℝ) : HasDerivAt (fun t : ℝ => c + (t - t0) * w) w t0 := by
  have := (((hasDerivAt_id t0).sub_const t0).mul_const w).const_add c
  simpa using this

theorem hasDerivAt_listSum (ps : List (ℝ × ℝ)) (t0 : ℝ) :
    HasDerivAt (fun t : ℝ => (ps.map fun p => p.1 + (t - t0) * p.2).sum) (ps.map Prod.snd).sum t0 := by
  induction ps with
  | nil => simpa using hasDerivAt_const t0 (0 : ℝ)
  | cons p ps ih =>
    simp only [List.map_cons, List.sum_cons]
    exact (hasDerivAt_affine p.1 p.2 t0).add ih

theorem hasDerivAt_listProd (ps : List (ℝ × ℝ)) (t0 : ℝ) (h : ∀ p ∈ ps, p.1 ≠ 0) :
    HasDerivAt (fun t : ℝ => (ps.map fun p => p.1 + (t - t0) * p.2).prod)
      (ps.map fun p => (ps.map Prod.fst).prod / p.1 * p.2).sum t0 := by
  induction ps with
  | nil => simpa using hasDerivAt_const t0 (1 : ℝ)
  | cons p ps ih =>
    have hp := h p (by simp)
    have := (hasDerivAt_affine p.1 p.2 t0).mul (ih fun q hq => h q (by simp [hq]))
    simp only [List.map_cons, List.prod_cons, List.sum_cons]
    refine this.congr_deriv ?_
    simp only [sub_self, zero_mul, add_zero]
    have e : (ps.map fun q => p.1 * (ps.map Prod.fst).prod / q.1 * q.2).sum = p.1 * (ps.map fun q => (ps.map Prod.fst).prod / q.1 * q.2).sum := by
      rw [← List.sum_map_mul_left]
      congr 1
      apply List.map_congr_left
      intro q _
      ring
    rw [e]
    field_simp

theorem foldl_min_ge (us : List ℝ) (m : ℝ) (h : ∀ u ∈ us, m < u) : us.foldl (fun m u => if u < m then u else m) m = m := by
  induction us with
  | nil => rfl
  | cons u us ih =>
    rw [List.foldl_cons, if_neg (not_lt.2 (h u (by simp)).le)]
    exact ih fun u' hu => h u' (by simp [hu])

theorem foldl_min_unique (A B : List ℝ) (x m : ℝ) (hm : x < m) (hA : ∀ u ∈ A, x < u) (hB : ∀ u ∈ B, x < u) :
    (A ++ x :: B).foldl (fun m u => if u < m then u else m) m = x := by
  induction A generalizing m with
  | nil =>
    rw [List.nil_append, List.foldl_cons, if_pos hm]
    exact foldl_min_ge B x hB
  | cons a A ih =>
    rw [List.cons_append, List.foldl_cons]
    refine ih _ ?_ (fun u hu => hA u (by simp [hu]))
    have := hA a (by simp)
    split_ifs <;> assumption

theorem hasDerivAt_listMin (A B : List (ℝ × ℝ)) (x : ℝ × ℝ) (t0 : ℝ) (hm : x.1 < 1) (hA : ∀ p ∈ A, x.1 < p.1) (hB : ∀ p ∈ B, x.1 < p.1) :
    HasDerivAt (fun t : ℝ => ((A ++ x :: B).map fun p => p.1 + (t - t0) * p.2).foldl (fun m u => if u < m then u else m) 1) x.2 t0 := by
  refine (hasDerivAt_affine x.1 x.2 t0).congr_of_eventuallyEq ?_
  have hc : ∀ p : ℝ × ℝ, Filter.Tendsto (fun t : ℝ => p.1 + (t - t0) * p.2) (nhds t0) (nhds p.1) := by
    intro p
    have : ContinuousAt (fun t : ℝ => p.1 + (t - t0) * p.2) t0 := by fun_prop
    have h2 := this.tendsto
    simpa using h2
  have hlt : ∀ L : List (ℝ × ℝ), (∀ p ∈ L, x.1 < p.1) → ∀ᶠ t in nhds t0, ∀ p ∈ L, x.1 + (t - t0) * x.2 < p.1 + (t - t0) * p.2 := by
    intro L hL
    induction L with
    | nil => simp
    | cons p L ih =>
      have h1 := (hc x).eventually_lt (hc p) (hL p (by simp))
      filter_upwards [h1, ih fun q hq => hL q (by simp [hq])] with t a b q hq
      rcases List.mem_cons.1 hq with rfl | hq
      · exact a
      · exact b q hq
  have h1 : ∀ᶠ t in nhds t0, x.1 + (t - t0) * x.2 < 1 := (hc x).eventually_lt tendsto_const_nhds hm
  filter_upwards [h1, hlt A hA, hlt B hB] with t a b c
  rw [List.map_append, List.map_cons]
  refine foldl_min_unique _ _ _ _ a ?_ ?_
  · intro u hu
    obtain ⟨p, hp, rfl⟩ := List.mem_map.1 hu
    exact b p hp
  · intro u hu
    obtain ⟨p, hp, rfl⟩ := List.mem_map.1 hu
    exact c p hp

end Mpb.MatGrid

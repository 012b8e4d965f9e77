import Verif.Medium.GridModel
import Verif.Medium.Props
import Verif.MatGrid.GradProps

/-! # C101: materials given by grids -/

namespace Mpb.Medium

open Mpb.Tensor Mpb.MatGrid

namespace Spec

/-- The grid of a material that is combined with `g` where they overlap: one of the same kind with the same range of the dielectric constant. -/
noncomputable def like (g : MGrid) (m : Material) : Option MGrid :=
  open Classical in
  match m with
  | .grid h => if h.kind = g.kind ∧ h.epsMin = g.epsMin ∧ h.epsMax = g.epsMax then some h else none
  | _ => none

/-- The grids combined below an object with grid `g`, each with the coordinates at which it is read: those of the objects that follow, as far as they
are like `g`; and that of the default material if all are. -/
noncomputable def followers (g : MGrid) (dflt : Material) (pd : V3 ℝ) : List (Material × V3 ℝ) → List (MGrid × V3 ℝ)
  | [] => ((like g dflt).map fun h => (h, pd)).toList
  | (m, q) :: rest => match like g m with
    | some h => (h, q) :: followers g dflt pd rest
    | none => []

/-- The value of a grid at a point: linear interpolation, mirrored at the boundaries. -/
noncomputable def value (U : Mem) (l : MGrid × V3 ℝ) : ℝ := Mpb.MatGrid.Spec.mirrorInterp (U l.1.arr) l.1.nx l.1.ny l.1.nz 1 l.2

/-- The combination of values: the least (at most 1), the product, or the mean. -/
noncomputable def combined (kind : Kind) (us : List ℝ) : ℝ :=
  match kind with
  | .uMin => us.foldr min 1
  | .uProd => us.prod
  | .uSum => us.sum / us.length

end Spec

theorem followers_eq (g : MGrid) (dflt : Material) (pd : V3 ℝ) (st : List (Material × V3 ℝ)) :
    visitRest g dflt.shape pd (st.map fun x => (x.1.shape, x.2)) = Spec.followers g dflt pd st := by
  have hc : ∀ m : Material, compatible g m.shape = Spec.like g m := by intro m; cases m <;> rfl
  induction st with
  | nil =>
    simp only [List.map_nil, visitRest, Spec.followers, hc]
    cases Spec.like g dflt <;> rfl
  | cons x st ih =>
    obtain ⟨m, q⟩ := x
    simp only [List.map_cons, visitRest, Spec.followers, hc, ih]
    cases Spec.like g m <;> rfl

theorem combined_eq (kind : Kind) (us : List ℝ) : combineKind kind us = Spec.combined kind us := by
  cases kind with
  | uMin =>
    change us.foldl (fun m u => if u < m then u else m) 1 = us.foldr min 1
    have h : ∀ (us : List ℝ) (a : ℝ), us.foldl (fun m u => if u < m then u else m) a = us.foldr min a := by
      intro us
      induction us with
      | nil => intro a; rfl
      | cons u us ih =>
        intro a
        rw [List.foldl_cons, ih, List.foldr_cons]
        have e : (if u < a then u else a) = min u a := by
          split_ifs with h
          · exact (min_eq_left h.le).symm
          · exact (min_eq_right (not_lt.1 h)).symm
        rw [e]
        clear ih e
        induction us with
        | nil => rfl
        | cons v us ih => rw [List.foldr_cons, List.foldr_cons, ih, min_left_comm]
    exact h us 1
  | uProd =>
    change us.foldl (fun m u => m * u) 1 = us.prod
    exact (List.prod_eq_foldl (xs := us)).symm
  | uSum =>
    change us.foldl (fun m u => m + u) 0 / us.length = us.sum / us.length
    rw [List.sum_eq_foldl (xs := us)]

/-- C101 (material grids).  At a point whose topmost object has a material grid the tensor is the number between the least and the greatest value of the
grid's range given by the combination of the values of the grids there, whatever the input file. -/
theorem C101_grid (herm : Bool) (w : Which) (file : Option (HMat × HMat)) (U : Mem) (pd p q : V3 ℝ) (g : MGrid) (rest : List (Material × V3 ℝ))
    (dflt : Material) (hg : ∀ l ∈ (g, q) :: Spec.followers g dflt pd rest, Mpb.MatGrid.Spec.GoodLayer U l) (x lo hi : ℝ)
    (hl : lo = match w with | .eps => g.epsMin | .mu => g.muMin) (hh : hi = match w with | .eps => g.epsMax | .mu => g.muMax)
    (hx : x = lo + (hi - lo) * Spec.combined g.kind (((g, q) :: Spec.followers g dflt pd rest).map (Spec.value U))) (h0 : x ≠ 0) :
    tensorFull herm w file U pd p ((.grid g, q) :: rest) dflt = some (.ok (scalar x, scalar (1 / x))) := by
  have hv : visit g dflt.shape pd (((.grid g, q) :: rest).map fun x => (x.1.shape, x.2)) = some ((g, q) :: Spec.followers g dflt pd rest) := by
    rw [List.map_cons]
    change some ((g, q) :: visitRest g dflt.shape pd (rest.map fun x => (x.1.shape, x.2))) = _
    rw [followers_eq]
  have hm := mapM_gridVal (U := U) _ hg
  have he : tensorFull herm w file U pd p ((.grid g, q) :: rest) dflt = evaluateAt herm w U pd p ((.grid g, q) :: rest) dflt (.grid g) := by
    cases file <;> rfl
  rw [he]
  unfold evaluateAt
  simp only [Material.resolve]
  unfold matgridVal
  rw [hv]
  simp only [Option.bind_eq_bind, Option.bind_some, hm, Option.pure_def, Option.map_some]
  rw [if_neg (by simp), combined_eq]
  have hval : ((g, q) :: Spec.followers g dflt pd rest).map (lval U) = ((g, q) :: Spec.followers g dflt pd rest).map (Spec.value U) := rfl
  rw [hval]
  cases w with
  | eps =>
    simp only at hl hh
    simp only [gridMedium, materialTensor]
    rw [show Spec.combined g.kind (((g, q) :: Spec.followers g dflt pd rest).map (Spec.value U)) * (g.epsMax - g.epsMin) + g.epsMin = x by
      rw [hx, hl, hh]; ring, if_neg h0]
  | mu =>
    simp only at hl hh
    simp only [gridMedium, materialTensor]
    rw [show Spec.combined g.kind (((g, q) :: Spec.followers g dflt pd rest).map (Spec.value U)) * (g.muMax - g.muMin) + g.muMin = x by
      rw [hx, hl, hh]; ring, if_neg h0]

/-- Non-vacuity: a grid of one value 1/2 between 1 and 12 in an object on top of an ordinary one: 6.5. -/
example (p pd : V3 ℝ) (file : Option (HMat × HMat)) :
    tensorFull false .eps file (fun _ => ⟨1, fun _ => 1 / 2⟩) pd p [(.grid (grid1 .uProd), ⟨1 / 2, 1 / 2, 1 / 2⟩), (.medium 3 1, ⟨0, 0, 0⟩)] (.medium 1 1) =
      some (.ok (scalar (13 / 2), scalar (1 / (13 / 2)))) := by
  refine C101_grid _ _ _ _ _ _ _ _ _ _ ?_ (13 / 2) 1 12 rfl rfl ?_ (by norm_num)
  · intro l hl
    simp only [Spec.followers, Spec.like, List.mem_singleton] at hl
    subst hl
    exact goodLayer_grid1 _ _
  · have : Spec.value (fun _ => ⟨1, fun _ => 1 / 2⟩) (grid1 .uProd, ⟨1 / 2, 1 / 2, 1 / 2⟩) = 1 / 2 := lval_grid1 .uProd (fun _ => ⟨1, fun _ => 1 / 2⟩)
    simp only [Spec.followers, Spec.like, List.map_cons, List.map_nil, this]
    norm_num [Spec.combined, grid1]

/-- Without grids the model of C101 is unchanged. -/
theorem tensorFull_eq (herm : Bool) (w : Which) (file : Option (HMat × HMat)) (U : Mem) (u : MGrid → ℝ) (pd p : V3 ℝ) (st : List (Material × V3 ℝ))
    (dflt : Material) (h : ∀ g, (pick (st.map (·.1)) dflt).1.resolve p ≠ .grid g) :
    tensorFull herm w file U pd p st dflt = some (tensorAt herm w file u p (st.map (·.1)) dflt) := by
  have hev : ∀ (st' : List (Material × V3 ℝ)) m, (∀ g, m.resolve p ≠ .grid g) →
      evaluateAt herm w U pd p st' dflt m = some (evaluate herm w u p m) := by
    intro st' m hm
    unfold evaluateAt evaluate
    cases hr : m.resolve p with
    | grid g => exact absurd hr (hm g)
    | _ => rfl
  cases st with
  | nil => cases file <;> [exact hev _ _ h; rfl]
  | cons x rest =>
    obtain ⟨m, q⟩ := x
    cases m with
    | self => cases file <;> [exact hev _ _ h; rfl]
    | medium a b => cases file <;> exact hev ((.medium a b, q) :: rest) _ h
    | anisotropic a b => cases file <;> exact hev ((.anisotropic a b, q) :: rest) _ h
    | grid g => exact absurd rfl (h g)
    | func f => cases file <;> exact hev ((.func f, q) :: rest) _ h

/-- C101 fails for a material function whose value is a material grid (mpb/epsilon.c:164-171 hands the grid to `matgrid_val`, which reads the grid of the
object itself, mpb/material_grid.c:105-108): in an object the behaviour is undefined, where the same grid given directly has a value. -/
theorem C101_function_grid_refuted (herm : Bool) (w : Which) (file : Option (HMat × HMat)) (U : Mem) (pd p q : V3 ℝ) (g : MGrid)
    (rest : List (Material × V3 ℝ)) (dflt : Material) : tensorFull herm w file U pd p ((.func fun _ => .grid g, q) :: rest) dflt = none := by
  cases file <;> rfl

/-- C101 fails for a default material function whose value is a material grid: outside the objects the grid's values are not looked at; the tensor is that of
the value 1 everywhere, or not a number for the mean. -/
theorem C101_default_function_grid_refuted (herm : Bool) (U : Mem) (pd p : V3 ℝ) (g : MGrid) (h0 : g.epsMax ≠ 0) :
    tensorFull herm .eps none U pd p [] (.func fun _ => .grid g) =
      some (if g.kind = .uSum then .nonFinite else .ok (scalar g.epsMax, scalar (1 / g.epsMax))) := by
  change evaluateAt herm .eps U pd p [] (.func fun _ => .grid g) (.func fun _ => .grid g) = _
  simp only [evaluateAt, Material.resolve, Material.shape, matgridVal, visit, visitRest, compatible, List.map_nil, Option.bind_eq_bind, Option.bind_some,
    List.mapM_nil, Option.pure_def, Option.map_some, List.length_nil, and_true]
  by_cases hk : g.kind = .uSum
  · rw [if_pos hk, if_pos hk]
  · rw [if_neg hk, if_neg hk]
    have : combineKind g.kind [] = 1 := by cases hkk : g.kind <;> simp_all [combineKind]
    rw [this]
    simp only [gridMedium, materialTensor]
    rw [show 1 * (g.epsMax - g.epsMin) + g.epsMin = g.epsMax by ring, if_neg h0]

end Mpb.Medium

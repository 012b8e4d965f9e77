import Verif.MatGrid.GradProps

/-!
# C100: overlapping material grids
-/

namespace Mpb.MatGrid

/-! ## The specification -/

/-- A material that is merged with the grid `mg` where they overlap: a material grid with the same rule and the same two dielectric
constants. -/
def Spec.Matches (mg : MGrid) (m : Mat) : Prop := ∃ g, m = .grid g ∧ g.kind = mg.kind ∧ g.epsMin = mg.epsMin ∧ g.epsMax = mg.epsMax

/-- The objects that contain a point (the topmost first), followed by the default material, that take part: as far as each matches. -/
inductive Spec.Merged (mg : MGrid) : List (Mat × V3 ℝ) → List (Mat × V3 ℝ) → Prop
  | done : Spec.Merged mg [] []
  | stop (x : Mat × V3 ℝ) (l : List (Mat × V3 ℝ)) : ¬ Spec.Matches mg x.1 → Spec.Merged mg (x :: l) []
  | take (x : Mat × V3 ℝ) (l r : List (Mat × V3 ℝ)) : Spec.Matches mg x.1 → Spec.Merged mg l r → Spec.Merged mg (x :: l) (x :: r)

/-- The grid's value at the object's coordinates is `u`. -/
def Spec.HasValue (U : Mem) (x : Mat × V3 ℝ) (u : ℝ) : Prop := ∃ g, x.1 = .grid g ∧ gridVal U (g, x.2) = some u

/-- The documented rules: the least value, the product, the mean. -/
def Spec.Rule (kind : Kind) (us : List ℝ) (v : ℝ) : Prop :=
  match kind with
  | .uMin => v ∈ us ∧ ∀ u ∈ us, v ≤ u
  | .uProd => v = us.prod
  | .uSum => v * us.length = us.sum

theorem compatible_spec (mg : MGrid) (m : Mat) : (∃ g, compatible mg m = some g ∧ m = .grid g ∧ Spec.Matches mg m) ∨
    (compatible mg m = none ∧ ¬ Spec.Matches mg m) := by
  cases m with
  | grid g =>
    unfold compatible
    simp only
    split_ifs with h
    · exact Or.inl ⟨g, rfl, rfl, g, rfl, h⟩
    · right
      refine ⟨rfl, ?_⟩
      rintro ⟨g', e, h'⟩
      rw [Mat.grid.injEq] at e
      subst e
      exact h h'
  | medium => right; exact ⟨rfl, by rintro ⟨g, e, -⟩; cases e⟩
  | self => right; exact ⟨rfl, by rintro ⟨g, e, -⟩; cases e⟩
  | func => right; exact ⟨rfl, by rintro ⟨g, e, -⟩; cases e⟩

theorem visitRest_merged (mg : MGrid) (dflt : Mat) (pd : V3 ℝ) : ∀ (st r : List (Mat × V3 ℝ)), Spec.Merged mg (st ++ [(dflt, pd)]) r →
    List.Forall₂ (fun x l => x.1 = Mat.grid l.1 ∧ x.2 = l.2) r (visitRest mg dflt pd st)
  | [], r, h => by
    unfold visitRest
    rcases compatible_spec mg dflt with ⟨g, e, h1, h2⟩ | ⟨e, h2⟩
    · rw [e]
      cases h with
      | stop _ _ hs => exact absurd h2 hs
      | take _ _ r' _ hr =>
        cases hr
        exact .cons ⟨h1, rfl⟩ .nil
    · rw [e]
      cases h with
      | stop _ _ hs => exact .nil
      | take _ _ r' hs hr => exact absurd hs h2
  | (m, p) :: st, r, h => by
    unfold visitRest
    rcases compatible_spec mg m with ⟨g, e, h1, h2⟩ | ⟨e, h2⟩
    · rw [e]
      cases h with
      | stop _ _ hs => exact absurd h2 hs
      | take _ _ r' _ hr => exact .cons ⟨h1, rfl⟩ (visitRest_merged mg dflt pd st r' hr)
    · rw [e]
      cases h with
      | stop _ _ hs => exact .nil
      | take _ _ r' hs hr => exact absurd hs h2

theorem minFold (us : List ℝ) : ∀ a : ℝ, (us.foldl (fun m u => if u < m then u else m) a = a ∨ us.foldl (fun m u => if u < m then u else m) a ∈ us) ∧
    us.foldl (fun m u => if u < m then u else m) a ≤ a ∧ ∀ u ∈ us, us.foldl (fun m u => if u < m then u else m) a ≤ u := by
  induction us with
  | nil => intro a; simp
  | cons x us ih =>
    intro a
    rw [List.foldl_cons]
    obtain ⟨h1, h2, h3⟩ := ih (if x < a then x else a)
    refine ⟨?_, ?_, ?_⟩
    · rcases h1 with h | h
      · rw [h]
        split_ifs
        · right; simp
        · left; rfl
      · right; exact List.mem_cons_of_mem _ h
    · refine h2.trans ?_
      split_ifs with h
      · exact h.le
      · exact le_rfl
    · intro u hu
      rcases List.mem_cons.1 hu with rfl | hu
      · refine h2.trans ?_
        split_ifs with h
        · exact le_rfl
        · exact not_lt.1 h
      · exact h3 u hu

theorem combine_rule (kind : Kind) (us : List ℝ) (hne : us ≠ []) (hus : ∀ u ∈ us, u ≤ 1) : Spec.Rule kind us (combineKind kind us) := by
  cases kind with
  | uMin =>
    obtain ⟨h1, -, h3⟩ := minFold us 1
    show combineKind .uMin us ∈ us ∧ _
    unfold combineKind
    refine ⟨?_, h3⟩
    rcases h1 with h | h
    · obtain ⟨u, us', rfl⟩ := List.exists_cons_of_ne_nil hne
      have := h3 u (by simp)
      simp only at h ⊢
      rw [h] at this ⊢
      have : u = 1 := le_antisymm (hus u (by simp)) this
      simp [this]
    · exact h
  | uProd =>
    show combineKind .uProd us = us.prod
    unfold combineKind
    simp only
    rw [List.prod_eq_foldl]
  | uSum =>
    show combineKind .uSum us * us.length = us.sum
    unfold combineKind
    simp only
    rw [List.sum_eq_foldl, div_mul_cancel₀]
    have := List.length_pos_of_ne_nil hne
    positivity

/-- C100.  At a point where a material grid is the topmost object (or the default material is one and no object contains the point) the value
is the least one, the product or the mean - as the grid says - of the values of that grid and of the matching grids directly below it,
down to the first material that does not match. -/
theorem C100_merge (U : Mem) (st : List (Mat × V3 ℝ)) (dflt : Mat) (pd : V3 ℝ) (mg : MGrid) (r : List (Mat × V3 ℝ)) (us : List ℝ)
    (htop : ((st ++ [(dflt, pd)]).head?.map Prod.fst) = some (.grid mg)) (hr : Spec.Merged mg (st ++ [(dflt, pd)]) r)
    (hv : List.Forall₂ (Spec.HasValue U) r us) (hus : ∀ u ∈ us, u ≤ 1) :
    ∃ v, matgridVal U st dflt pd mg = some (v, r.length) ∧ Spec.Rule mg.kind us v := by
  have hm : Spec.Matches mg (.grid mg) := ⟨mg, rfl, rfl, rfl, rfl⟩
  have key : ∃ ls, visit mg dflt pd st = some ls ∧ List.Forall₂ (fun x l => x.1 = Mat.grid l.1 ∧ x.2 = l.2) r ls ∧ r ≠ [] := by
    cases st with
    | nil =>
      refine ⟨_, rfl, visitRest_merged mg dflt pd [] r hr, ?_⟩
      simp only [List.nil_append, List.head?_cons, Option.map_some, Option.some.injEq] at htop
      rintro rfl
      cases hr with
      | stop _ _ hs => exact hs (htop ▸ hm)
    | cons x st =>
      obtain ⟨m, p⟩ := x
      simp only [List.cons_append, List.head?_cons, Option.map_some, Option.some.injEq] at htop
      subst htop
      cases hr with
      | stop _ _ hs => exact absurd hm hs
      | take _ _ r' _ hr => exact ⟨_, rfl, .cons ⟨rfl, rfl⟩ (visitRest_merged mg dflt pd st r' hr), by simp⟩
  obtain ⟨ls, h1, h2, h3⟩ := key
  have h4 : ls.mapM (gridVal U) = some us := by
    clear h1 hr h3 hus
    induction h2 generalizing us with
    | nil => cases hv; rfl
    | cons hx _ ih =>
      cases hv with
      | cons hu hv =>
        rw [List.mapM_cons, ih _ hv]
        obtain ⟨g, e1, e2⟩ := hu
        rw [hx.1, Mat.grid.injEq] at e1
        rw [hx.2] at e2
        rw [show gridVal U _ = some _ from e1 ▸ e2]
        rfl
  have hlen : us.length = r.length := hv.length_eq.symm
  unfold matgridVal
  rw [h1]
  simp only [Option.bind_eq_bind, Option.bind_some, h4, Option.pure_def, hlen]
  refine ⟨_, rfl, combine_rule _ _ ?_ hus⟩
  intro h
  rw [h] at hlen
  exact h3 (List.eq_nil_of_length_eq_zero hlen.symm)

/-- Non-vacuity: two matching grids and a third one below them that does not match; the values at the point are 0 and 0. -/
example : ∃ (mg : MGrid) (U : Mem) (st r : List (Mat × V3 ℝ)) (us : List ℝ),
    ((st ++ [(Mat.medium, (⟨0, 0, 0⟩ : V3 ℝ))]).head?.map Prod.fst) = some (.grid mg) ∧
    Spec.Merged mg (st ++ [(Mat.medium, ⟨0, 0, 0⟩)]) r ∧ List.Forall₂ (Spec.HasValue U) r us ∧ (∀ u ∈ us, u ≤ 1) ∧ r.length = 2 ∧ st.length = 3 := by
  let mg : MGrid := ⟨.uSum, 1, 12, 1, 1, 1, 1, 1, 0⟩
  let g3 : MGrid := ⟨.uSum, 1, 13, 1, 1, 1, 1, 1, 0⟩
  let U : Mem := fun _ => ⟨1, fun _ => 0⟩
  have hv : ∃ u, gridVal U (mg, ⟨1 / 2, 1 / 2, 1 / 2⟩) = some u ∧ 0 ≤ u ∧ u ≤ 1 := by
    refine ⟨_, C49_interp_partial _ _ _ _ _ _ Nat.one_pos Nat.one_pos Nat.one_pos Nat.one_pos le_rfl (by norm_num) (by norm_num) (by norm_num), ?_⟩
    simp [Spec.mirrorInterp, Spec.trilin, Spec.lin, Spec.sample, U]
  obtain ⟨u, hu, -, hu1⟩ := hv
  have hm : Spec.Matches mg (.grid mg) := ⟨mg, rfl, rfl, rfl, rfl⟩
  refine ⟨mg, U, [(.grid mg, ⟨1 / 2, 1 / 2, 1 / 2⟩), (.grid mg, ⟨1 / 2, 1 / 2, 1 / 2⟩), (.grid g3, ⟨1 / 2, 1 / 2, 1 / 2⟩)], _, [u, u], rfl,
    .take _ _ _ hm (.take _ _ _ hm (.stop _ _ ?_)), .cons ⟨mg, rfl, hu⟩ (.cons ⟨mg, rfl, hu⟩ .nil), by simpa using hu1, rfl, rfl⟩
  rintro ⟨g, e, -, -, h⟩
  have e' : g3 = g := Mat.grid.inj e
  rw [← e'] at h
  norm_num [mg, g3] at h

end Mpb.MatGrid

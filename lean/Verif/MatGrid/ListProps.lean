import Verif.MatGrid.Model
import Mathlib.Algebra.BigOperators.Group.List.Basic
import Mathlib.Tactic.Linarith

/-! # Property C51: the list of material grids and its degrees of freedom -/

namespace Mpb.MatGrid

/-- Specification: the grids that occur in the geometry or as default material. -/
def Spec.Occurs (objs : List Mat) (dflt : Mat) (g : MGrid) : Prop := Mat.grid g ∈ objs ∨ dflt = Mat.grid g

/-- Specification: the number of grid values before a grid. -/
def Spec.offset (pre : List MGrid) : ℕ := (pre.map fun g => g.nx * g.ny * g.nz).sum

/-- Specification: every grid's array has room for the grid's values. -/
def Spec.Allocated (U : Mem) (gs : List MGrid) : Prop := ∀ g ∈ gs, g.nx * g.ny * g.nz ≤ (U g.arr).len

/-- Specification: no two of the grids share an array. -/
def Spec.DistinctArrays (gs : List MGrid) : Prop := gs.Pairwise fun a b => a.arr ≠ b.arr

open Spec

theorem mem_addGrid (gs : List MGrid) (m : Mat) (g : MGrid) : g ∈ addGrid gs m ↔ g ∈ gs ∨ m = Mat.grid g := by
  unfold addGrid
  cases m with
  | grid h =>
    simp only
    split_ifs with hm
    · constructor
      · exact Or.inl
      · rintro (h1 | h1)
        · exact h1
        · cases h1; exact hm
    · simp only [List.mem_append, List.mem_singleton, Mat.grid.injEq]
      exact or_congr Iff.rfl eq_comm
  | _ => simp

theorem nodup_addGrid {gs : List MGrid} (h : gs.Nodup) (m : Mat) : (addGrid gs m).Nodup := by
  unfold addGrid
  cases m with
  | grid g =>
    simp only
    split_ifs with hm
    · exact h
    · rw [List.nodup_append]
      exact ⟨h, by simp, fun a ha b hb => by
        rw [List.mem_singleton] at hb
        subst hb
        rintro rfl
        exact hm ha⟩
  | _ => exact h

theorem foldl_addGrid (objs : List Mat) (gs : List MGrid) (h : gs.Nodup) :
    (objs.foldl addGrid gs).Nodup ∧ ∀ g, g ∈ objs.foldl addGrid gs ↔ g ∈ gs ∨ Mat.grid g ∈ objs := by
  induction objs generalizing gs with
  | nil => exact ⟨h, fun g => by simp⟩
  | cons m objs ih =>
    obtain ⟨h1, h2⟩ := ih (addGrid gs m) (nodup_addGrid h m)
    refine ⟨h1, fun g => ?_⟩
    rw [List.foldl_cons, h2, mem_addGrid, List.mem_cons, or_assoc]
    exact or_congr Iff.rfl (or_congr eq_comm Iff.rfl)

/-- C51: the list contains every material grid of the geometry and of the default material, exactly once, and nothing else. -/
theorem C51_enumeration (objs : List Mat) (dflt : Mat) :
    (getMaterialGrids objs dflt).Nodup ∧ ∀ g, g ∈ getMaterialGrids objs dflt ↔ Occurs objs dflt g := by
  obtain ⟨h1, h2⟩ := foldl_addGrid objs [] List.nodup_nil
  unfold getMaterialGrids
  refine ⟨nodup_addGrid h1 _, fun g => ?_⟩
  rw [mem_addGrid, h2]
  simp [Occurs]

theorem foldl_ntot (gs : List MGrid) (n : ℕ) : gs.foldl (fun n g => n + g.ntot) n = n + offset gs := by
  induction gs generalizing n with
  | nil => simp [offset]
  | cons g gs ih =>
    rw [List.foldl_cons, ih]
    simp only [offset, MGrid.ntot, List.map_cons, List.sum_cons]
    omega

/-- C51: the total size is the sum of the sizes. -/
theorem C51_total (gs : List MGrid) : ntotAll gs = offset gs := by
  unfold ntotAll
  rw [foldl_ntot, Nat.zero_add]

theorem offset_cons (g : MGrid) (gs : List MGrid) : offset (g :: gs) = g.ntot + offset gs := by
  simp [offset, MGrid.ntot]

theorem offset_append (a b : List MGrid) : offset (a ++ b) = offset a + offset b := by simp [offset]

/-- What `material_grids_get` does from position `j` on. -/
theorem get_spec (U : Mem) (gs : List MGrid) (j : ℕ) (u : Arr) (hl : j + offset gs ≤ u.len) (ha : Allocated U gs) :
    ∃ u', materialGridsGet U gs j u = some u' ∧ u'.len = u.len ∧ (∀ k, k < j ∨ j + offset gs ≤ k → u'.get k = u.get k) ∧
      ∀ pre g post, gs = pre ++ g :: post → ∀ i < g.ntot, u'.get (j + offset pre + i) = (U g.arr).get i := by
  induction gs generalizing j u with
  | nil => exact ⟨u, rfl, rfl, fun _ _ => rfl, fun pre g post h => by simp at h⟩
  | cons g gs ih =>
    rw [offset_cons] at hl
    have hg := ha g (by simp)
    have e : getOne (U g.arr) j g.ntot u = some ⟨u.len, fun k => if j ≤ k ∧ k < j + g.ntot then (U g.arr).get (k - j) else u.get k⟩ := by
      unfold getOne
      rw [if_pos ⟨by omega, hg⟩]
    obtain ⟨u', h1, h2, h3, h4⟩ := ih (j + g.ntot) ⟨u.len, fun k => if j ≤ k ∧ k < j + g.ntot then (U g.arr).get (k - j) else u.get k⟩
      (by simp only; omega) (fun g' hg' => ha g' (by simp [hg']))
    refine ⟨u', ?_, h2, fun k hk => ?_, fun pre g' post he i hi => ?_⟩
    · unfold materialGridsGet
      simp only [e, Option.bind_eq_bind, Option.bind_some]
      exact h1
    · rw [offset_cons] at hk
      rw [h3 k (by omega)]
      simp only
      rw [if_neg (by omega)]
    · cases pre with
      | nil =>
        simp only [List.nil_append, List.cons.injEq] at he
        obtain ⟨rfl, rfl⟩ := he
        have e0 : j + offset [] + i = j + i := by simp [offset]
        rw [e0, h3 _ (by omega)]
        simp only
        rw [if_pos (by omega)]
        congr 1
        omega
      | cons p pre =>
        simp only [List.cons_append, List.cons.injEq] at he
        obtain ⟨rfl, rfl⟩ := he
        have := h4 pre g' post rfl i hi
        rw [offset_cons]
        rw [show j + (g.ntot + offset pre) + i = j + g.ntot + offset pre + i by omega]
        exact this

/-- What `material_grids_set` does from position `j` on. -/
theorem set_spec (u : Arr) (gs : List MGrid) (j : ℕ) (U : Mem) (hl : j + offset gs ≤ u.len) (ha : Allocated U gs) :
    ∃ U', materialGridsSet u gs j U = some U' ∧ (∀ b, (U' b).len = (U b).len) ∧ (∀ b, (∀ g ∈ gs, g.arr ≠ b) → U' b = U b) ∧
      (DistinctArrays gs → ∀ pre g post, gs = pre ++ g :: post →
        (∀ i < g.ntot, (U' g.arr).get i = u.get (j + offset pre + i)) ∧ ∀ i, g.ntot ≤ i → (U' g.arr).get i = (U g.arr).get i) := by
  induction gs generalizing j U with
  | nil => exact ⟨U, rfl, fun _ => rfl, fun _ _ => rfl, fun _ pre g post h => by simp at h⟩
  | cons g gs ih =>
    rw [offset_cons] at hl
    have hg := ha g (by simp)
    have e : setOne u j g.ntot (U g.arr) = some ⟨(U g.arr).len, fun k => if k < g.ntot then u.get (j + k) else (U g.arr).get k⟩ := by
      unfold setOne
      rw [if_pos ⟨by omega, hg⟩]
    have hlen : ∀ b, (Function.update U g.arr ⟨(U g.arr).len, fun k => if k < g.ntot then u.get (j + k) else (U g.arr).get k⟩ b).len = (U b).len := by
      intro b
      by_cases hb : b = g.arr
      · subst hb; simp
      · rw [Function.update_of_ne hb]
    obtain ⟨U', h1, h2, h3, h4⟩ := ih (j + g.ntot) (Function.update U g.arr ⟨(U g.arr).len, fun k => if k < g.ntot then u.get (j + k) else (U g.arr).get k⟩)
      (by omega) (fun g' hg' => by rw [hlen]; exact ha g' (by simp [hg']))
    refine ⟨U', ?_, fun b => (h2 b).trans (hlen b), fun b hb => ?_, fun hd pre g' post he => ?_⟩
    · unfold materialGridsSet
      simp only [e, Option.bind_eq_bind, Option.bind_some]
      exact h1
    · rw [h3 b (fun g' hg' => hb g' (by simp [hg']))]
      exact Function.update_of_ne (Ne.symm (hb g (by simp))) _ _
    · have hd' := List.pairwise_cons.1 hd
      cases pre with
      | nil =>
        simp only [List.nil_append, List.cons.injEq] at he
        obtain ⟨rfl, rfl⟩ := he
        have e1 := h3 g.arr (fun g' hg' h => hd'.1 g' hg' h.symm)
        rw [e1]
        simp only [Function.update_self]
        refine ⟨fun i hi => ?_, fun i hi => ?_⟩
        · rw [if_pos hi]; simp [offset]
        · rw [if_neg (by omega)]
      | cons p pre =>
        simp only [List.cons_append, List.cons.injEq] at he
        obtain ⟨rfl, rfl⟩ := he
        obtain ⟨a, b⟩ := h4 hd'.2 pre g' post rfl
        refine ⟨fun i hi => ?_, fun i hi => ?_⟩
        · rw [a i hi, offset_cons]
          congr 1
          omega
        · rw [b i hi, Function.update_of_ne]
          exact Ne.symm (hd'.1 g' (by simp))

theorem exists_pos (gs : List MGrid) (k : ℕ) (h : k < offset gs) : ∃ pre g post i, gs = pre ++ g :: post ∧ i < g.ntot ∧ k = offset pre + i := by
  induction gs generalizing k with
  | nil => simp [offset] at h
  | cons g gs ih =>
    rw [offset_cons] at h
    by_cases hk : k < g.ntot
    · exact ⟨[], g, gs, k, rfl, hk, by simp [offset]⟩
    · obtain ⟨pre, g', post, i, rfl, h2, h3⟩ := ih (k - g.ntot) (by omega)
      exact ⟨g :: pre, g', post, i, rfl, h2, by rw [offset_cons]; omega⟩

/-- C51: entry `i` of a grid is degree of freedom number `offset + i`, for setting. -/
theorem C51_set (u : Arr) (gs : List MGrid) (U : Mem) (hl : offset gs ≤ u.len) (ha : Allocated U gs) (hd : DistinctArrays gs) :
    ∃ U', materialGridsSet u gs 0 U = some U' ∧ ∀ pre g post, gs = pre ++ g :: post → ∀ i < g.nx * g.ny * g.nz,
      (U' g.arr).get i = u.get (offset pre + i) := by
  obtain ⟨U', h1, -, -, h4⟩ := set_spec u gs 0 U (by omega) ha
  exact ⟨U', h1, fun pre g post he i hi => by rw [(h4 hd pre g post he).1 i hi]; simp⟩

/-- C51: setting the degrees of freedom to `u` and getting them gives `u`. -/
theorem C51_set_get (u w : Arr) (gs : List MGrid) (U : Mem) (hl : offset gs ≤ u.len) (hw : offset gs ≤ w.len) (ha : Allocated U gs)
    (hd : DistinctArrays gs) : ∃ U' u', materialGridsSet u gs 0 U = some U' ∧ materialGridsGet U' gs 0 w = some u' ∧
      ∀ k < offset gs, u'.get k = u.get k := by
  obtain ⟨U', h1, h2, -, h4⟩ := set_spec u gs 0 U (by omega) ha
  obtain ⟨u', g1, -, -, g4⟩ := get_spec U' gs 0 w (by omega) (fun g hg => by rw [h2]; exact ha g hg)
  refine ⟨U', u', h1, g1, fun k hk => ?_⟩
  obtain ⟨pre, g, post, i, he, hi, rfl⟩ := exists_pos gs k hk
  have a := g4 pre g post he i hi
  have b := (h4 hd pre g post he).1 i hi
  rw [Nat.zero_add] at a b
  rw [a, b]

/-- C51: getting the degrees of freedom and setting them again changes nothing. -/
theorem C51_get_set (w : Arr) (gs : List MGrid) (U : Mem) (hw : offset gs ≤ w.len) (ha : Allocated U gs) (hd : DistinctArrays gs) :
    ∃ u U', materialGridsGet U gs 0 w = some u ∧ materialGridsSet u gs 0 U = some U' ∧ U' = U := by
  obtain ⟨u, g1, g2, -, g4⟩ := get_spec U gs 0 w (by omega) ha
  obtain ⟨U', h1, h2, h3, h4⟩ := set_spec u gs 0 U (by rw [g2]; omega) ha
  refine ⟨u, U', g1, h1, ?_⟩
  funext b
  by_cases hb : ∀ g ∈ gs, g.arr ≠ b
  · exact h3 b hb
  · push Not at hb
    obtain ⟨g, hg, rfl⟩ := hb
    obtain ⟨pre, post, he⟩ := List.append_of_mem hg
    have hl := h2 g.arr
    have hg : (U' g.arr).get = (U g.arr).get := by
      funext i
      by_cases hi : i < g.ntot
      · rw [(h4 hd pre g post he).1 i hi, g4 pre g post he i hi]
      · exact (h4 hd pre g post he).2 i (by omega)
    cases hU : U' g.arr
    cases hV : U g.arr
    rw [hU, hV] at hl hg
    simp only at hl hg
    rw [hl, hg]

/-- Non-vacuity: two objects with the same grid, and another grid as default material. -/
example : ∃ (a b : MGrid) (U : Mem), getMaterialGrids [.grid a, .medium, .grid a] (.grid b) = [a, b] ∧
    DistinctArrays [a, b] ∧ Allocated U [a, b] ∧ offset [a, b] = 14 := by
  refine ⟨⟨.uMin, 1, 12, 1, 1, 2, 3, 1, 0⟩, ⟨.uMin, 1, 12, 1, 1, 2, 2, 2, 1⟩, fun _ => ⟨8, fun _ => 0⟩, ?_, ?_, ?_, ?_⟩
  · simp [getMaterialGrids, addGrid]
  · simp [DistinctArrays]
  · simp [Allocated]
  · simp [offset]

end Mpb.MatGrid

import Verif.Moment.Spec
import Mathlib.Data.List.Perm.Basic
import Mathlib.Tactic.FinCases

/-!
# The spherical meshes: lemmas
-/

namespace Mpb.Moment
open Mpb.Tensor

/-- The integer vectors of group 1, in the order of the program. -/
def codes1 : List (V3 ℤ) :=
  [
   ⟨0, -1, 0⟩, ⟨0, 0, -1⟩, ⟨-1, 0, 0⟩, ⟨0, 1, 0⟩, ⟨0, 0, 1⟩, ⟨1, 0, 0⟩]

/-- The integer vectors of group 2, in the order of the program. -/
def codes2 : List (V3 ℤ) :=
  [
   ⟨0, -1, -1⟩, ⟨-1, 0, -1⟩, ⟨-1, -1, 0⟩, ⟨0, -1, 1⟩, ⟨1, 0, -1⟩, ⟨-1, 1, 0⟩,
   ⟨0, 1, -1⟩, ⟨-1, 0, 1⟩, ⟨1, -1, 0⟩, ⟨0, 1, 1⟩, ⟨1, 0, 1⟩, ⟨1, 1, 0⟩]

/-- The integer vectors of group 3, in the order of the program. -/
def codes3 : List (V3 ℤ) :=
  [
   ⟨-1, -1, -1⟩, ⟨-1, -1, 1⟩, ⟨-1, 1, -1⟩, ⟨-1, 1, 1⟩, ⟨1, -1, -1⟩, ⟨1, -1, 1⟩,
   ⟨1, 1, -1⟩, ⟨1, 1, 1⟩]

/-- The integer vectors of group 4, in the order of the program. -/
def codes4 : List (V3 ℤ) :=
  [
   ⟨-3, -1, -1⟩, ⟨-1, -3, -1⟩, ⟨-1, -1, -3⟩, ⟨3, -1, -1⟩, ⟨-1, 3, -1⟩, ⟨-1, -1, 3⟩,
   ⟨-3, -1, 1⟩, ⟨1, -3, -1⟩, ⟨-1, 1, -3⟩, ⟨3, -1, 1⟩, ⟨1, 3, -1⟩, ⟨-1, 1, 3⟩,
   ⟨-3, 1, -1⟩, ⟨-1, -3, 1⟩, ⟨1, -1, -3⟩, ⟨3, 1, -1⟩, ⟨-1, 3, 1⟩, ⟨1, -1, 3⟩,
   ⟨-3, 1, 1⟩, ⟨1, -3, 1⟩, ⟨1, 1, -3⟩, ⟨3, 1, 1⟩, ⟨1, 3, 1⟩, ⟨1, 1, 3⟩]

/-- The 50 points as integer vectors and the number of their group. -/
def codes : List (V3 ℤ × ℕ) :=
  codes1.map (·, 1) ++ codes2.map (·, 2) ++ codes3.map (·, 3) ++ codes4.map (·, 4)

/-- The radius of the integer vectors of a group. -/
noncomputable def scale (g : ℕ) : ℝ := if g = 1 then 1 else if g = 2 then Real.sqrt (1 / 2) else if g = 3 then Real.sqrt (1 / 3) else Real.sqrt (1 / 11)

/-- The weight of a group. -/
noncomputable def weight (g : ℕ) : ℝ :=
  if g = 1 then 9216 / 725760 else if g = 2 then 16384 / 725760 else if g = 3 then 15309 / 725760 else 14641 / 725760

/-- The entry of a code. -/
noncomputable def interp (c : V3 ℤ × ℕ) : Entry := (⟨c.1.x * scale c.2, c.1.y * scale c.2, c.1.z * scale c.2⟩, weight c.2)

set_option maxRecDepth 4000 in
theorem part1_codes (l : List Entry) : part1 l = l ++ (codes1.map (·, 1)).map interp := by
  simp only [part1, times, shiftStore, store, shift3, flipX, flipY, flipZ, codes1, interp, scale, weight, List.map_cons, List.map_nil,
    List.append_assoc, List.cons_append, List.nil_append, neg_neg]
  norm_num

set_option maxRecDepth 4000 in
theorem part2_codes (l : List Entry) : part2 l = l ++ (codes2.map (·, 2)).map interp := by
  simp only [part2, times, shiftStore, store, shift3, flipX, flipY, flipZ, codes2, interp, scale, weight, List.map_cons, List.map_nil,
    List.append_assoc, List.cons_append, List.nil_append, neg_neg]
  norm_num

set_option maxRecDepth 4000 in
theorem part3_codes (l : List Entry) : part3 l = l ++ (codes3.map (·, 3)).map interp := by
  simp only [part3, times, shiftStore, store, shift3, flipX, flipY, flipZ, codes3, interp, scale, weight, List.map_cons, List.map_nil,
    List.append_assoc, List.cons_append, List.nil_append, neg_neg]
  norm_num

set_option maxRecDepth 4000 in
theorem part4_codes (l : List Entry) : part4 l = l ++ (codes4.map (·, 4)).map interp := by
  simp only [part4, times, shiftStore, store, shift3, flipX, flipY, flipZ, codes4, interp, scale, weight, List.map_cons, List.map_nil,
    List.append_assoc, List.cons_append, List.nil_append, neg_neg]
  norm_num

theorem quadrature_codes : sphericalQuadrature = some (codes.map interp) := by
  have h : part4 (part3 (part2 (part1 []))) = codes.map interp := by
    rw [part4_codes, part3_codes, part2_codes, part1_codes, List.nil_append]
    simp only [codes, List.map_append]
  unfold sphericalQuadrature
  dsimp only
  rw [h, if_pos (by rw [List.length_map]; rfl)]

/-- The integer vectors are carried to themselves by each of the 48 signed permutations. -/
theorem codes_perm : ∀ (σ : Equiv.Perm (Fin 3)) (neg : Fin 3 → Bool), (codes.map fun c => ((⟨σ, neg⟩ : Axes).act c.1, c.2)).Perm codes := by
  decide +kernel

theorem interp_act (S : Axes) (c : V3 ℤ × ℕ) : interp (S.act c.1, c.2) = (S.act (interp c).1, (interp c).2) := by
  have h : ∀ i, ((S.get c.1 i : ℤ) : ℝ) * scale c.2 = S.get (interp c).1 i := by
    intro i
    unfold Axes.get
    have e : ((comp c.1 (S.σ i) : ℤ) : ℝ) * scale c.2 = comp (interp c).1 (S.σ i) := by
      generalize S.σ i = j
      fin_cases j <;> rfl
    split
    · push_cast
      rw [neg_mul, e]
    · exact e
  unfold interp Axes.act
  simp only [Prod.mk.injEq, V3.mk.injEq, and_true]
  exact ⟨h 0, h 1, h 2⟩

theorem quadrature_invariant (S : Axes) : Invariant S.act (codes.map interp) := by
  unfold Invariant
  rw [List.map_map]
  have h := (codes_perm S.σ S.neg).map interp
  rw [List.map_map] at h
  refine List.Perm.trans (List.Perm.of_eq (List.map_congr_left fun c _ => ?_)) h
  exact (interp_act S c).symm

/-! ## `sort_by_distance` permutes its entries -/

theorem farthest_bounds (fl : ℝ → ℝ) (a : ℕ → Entry) {n i : ℕ} (hi : i < n) : i ≤ farthest fl a n i ∧ farthest fl a n i < n := by
  classical
  unfold farthest
  have key : ∀ (l : List ℕ) (s : ℝ × ℝ × ℕ), (∀ j ∈ l, i ≤ j ∧ j < n) → (i ≤ s.2.2 ∧ s.2.2 < n) →
      i ≤ (l.foldl (fun (s : ℝ × ℝ × ℕ) j =>
        let d := distances fl a j i
        if d.1 > s.1 ∨ (d.1 = s.1 ∧ d.2 > s.2.1) then (d.1, d.2, j) else s) s).2.2 ∧
      (l.foldl (fun (s : ℝ × ℝ × ℕ) j =>
        let d := distances fl a j i
        if d.1 > s.1 ∨ (d.1 = s.1 ∧ d.2 > s.2.1) then (d.1, d.2, j) else s) s).2.2 < n := by
    intro l
    induction l with
    | nil => intro s _ h; exact h
    | cons j l ih =>
      intro s hl hs
      rw [List.foldl_cons]
      refine ih _ (fun k hk => hl k (List.mem_cons_of_mem _ hk)) ?_
      dsimp only
      split
      · exact hl j (by simp)
      · exact hs
  refine key _ _ (fun j hj => ?_) ⟨le_refl _, hi⟩
  rw [List.mem_range'_1] at hj
  omega

theorem exchange_eq (a : ℕ → Entry) (i j : ℕ) : exchange a i j = fun k => a (Equiv.swap i j k) := by
  funext k
  unfold exchange
  by_cases h : k = j
  · subst h; simp
  · rw [Function.update_of_ne h]
    by_cases h' : k = i
    · subst h'; simp
    · rw [Function.update_of_ne h', Equiv.swap_apply_of_ne_of_ne h' h]

theorem exchange_perm (a : ℕ → Entry) {n i j : ℕ} (hi : i < n) (hj : j < n) : ((List.range n).map (exchange a i j)).Perm ((List.range n).map a) := by
  rw [exchange_eq, show (fun k => a (Equiv.swap i j k)) = a ∘ Equiv.swap i j from rfl, ← List.map_map]
  refine List.Perm.map a ?_
  rw [List.perm_ext_iff_of_nodup (List.nodup_range.map (Equiv.injective _)) List.nodup_range]
  intro k
  simp only [List.mem_map, List.mem_range]
  have hb : ∀ m, m < n → Equiv.swap i j m < n := by
    intro m hm
    rw [Equiv.swap_apply_def]
    split_ifs <;> assumption
  exact ⟨by rintro ⟨m, hm, rfl⟩; exact hb m hm, fun hk => ⟨Equiv.swap i j k, hb k hk, Equiv.swap_apply_self i j k⟩⟩

theorem sortByDistance_perm (fl : ℝ → ℝ) (n : ℕ) (a : ℕ → Entry) : ((List.range n).map (sortByDistance fl n a)).Perm ((List.range n).map a) := by
  unfold sortByDistance
  have key : ∀ (l : List ℕ) (a : ℕ → Entry), (∀ i ∈ l, i < n) →
      ((List.range n).map (l.foldl (fun a i => exchange a i (farthest fl a n i)) a)).Perm ((List.range n).map a) := by
    intro l
    induction l with
    | nil => intro a _; exact List.Perm.refl _
    | cons i l ih =>
      intro a hl
      have hi := hl i (by simp)
      exact (ih _ fun k hk => hl k (List.mem_cons_of_mem _ hk)).trans (exchange_perm a hi (farthest_bounds fl a hi).2)
  refine key _ _ fun i hi => ?_
  rw [List.mem_range'_1] at hi
  omega

theorem sorted_perm (fl : ℝ → ℝ) (l : List Entry) : (sorted fl l).Perm l := by
  unfold sorted
  refine (sortByDistance_perm fl _ _).trans (List.Perm.of_eq ?_)
  refine List.ext_getElem (by simp) fun i h1 h2 => ?_
  simp [List.getD_eq_getElem?_getD, List.getElem?_eq_getElem h2]

theorem Invariant.congr {f : V3 ℝ → V3 ℝ} {l l' : List Entry} (h : Invariant f l) (hp : l'.Perm l) : Invariant f l' :=
  (hp.map _).trans (List.Perm.trans h hp.symm)

end Mpb.Moment

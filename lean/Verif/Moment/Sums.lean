import Verif.Moment.Lemmas

/-!
# Sums over the meshes
-/

namespace Mpb.Moment
open Mpb.Tensor

/-- Sums over an invariant mesh. -/
theorem Invariant.sum {f : V3 ℝ → V3 ℝ} {l : List Entry} (h : Invariant f l) (F : Entry → ℝ) : (l.map F).sum = (l.map fun e => F (f e.1, e.2)).sum := by
  have := (List.Perm.map F h).sum_eq
  rw [List.map_map] at this
  exact this.symm

/-- A mesh invariant under inversion has vanishing odd moments. -/
theorem odd_sum {l : List Entry} (h : Invariant (fun v => -v) l) (F : Entry → ℝ) (hF : ∀ v w, F (-v, w) = -F (v, w)) : (l.map F).sum = 0 := by
  have h1 := h.sum F
  have h2 : (l.map fun e => F (-e.1, e.2)) = (l.map F).map (fun x => -x) := by
    rw [List.map_map]
    exact List.map_congr_left fun e _ => hF e.1 e.2
  have h3 : ∀ l : List ℝ, (l.map fun x => -x).sum = -l.sum := by
    intro l
    induction l with
    | nil => simp
    | cons a l ih => rw [List.map_cons, List.sum_cons, List.sum_cons, ih]; ring
  rw [h2, h3] at h1
  linarith

theorem act_neg (v : V3 ℝ) : (⟨1, fun _ => true⟩ : Axes).act v = -v := by
  ext <;> simp [Axes.act, Axes.get, comp]

theorem quadrature_inversion : Invariant (fun v => -v) (codes.map interp) := by
  have := quadrature_invariant ⟨1, fun _ => true⟩
  rwa [show ((⟨1, fun _ => true⟩ : Axes).act : V3 ℝ → V3 ℝ) = fun v => -v from funext act_neg] at this

theorem dot_neg (a v : V3 ℝ) : a.dot (-v) = -(a.dot v) := by simp [V3.dot]; ring

theorem odd_power (a : V3 ℝ) (e : ℕ) : ((codes.map interp).map fun p => p.2 * (a.dot p.1) ^ (2 * e + 1)).sum = 0 :=
  odd_sum quadrature_inversion _ fun v w => by
    dsimp only
    rw [dot_neg, Odd.neg_pow ⟨e, rfl⟩, mul_neg]

/-! ## The circle -/

/-- Point `k` of the circle. -/
noncomputable def onCircle (k : ℤ) : V3 ℝ := ⟨Real.cos (2 * k * Real.pi / 12), Real.sin (2 * k * Real.pi / 12), 0⟩

theorem circle_eq : circle = (List.range 12).map fun i : ℕ => (onCircle i, (1 : ℝ) / 12) := by
  unfold circle
  refine List.map_congr_left fun i hi => ?_
  rw [List.mem_range] at hi
  have e6 : (2 * ((6 : ℤ) : ℝ) * Real.pi / 12) = Real.pi := by push_cast; ring
  have e3 : (2 * ((3 : ℤ) : ℝ) * Real.pi / 12) = Real.pi / 2 := by push_cast; ring
  have e9 : (2 * ((9 : ℤ) : ℝ) * Real.pi / 12) = Real.pi / 2 + Real.pi := by push_cast; ring
  by_cases h0 : i = 0
  · subst h0; simp [onCircle]
  by_cases h6 : 2 * i = 12
  · obtain rfl : i = 6 := by omega
    simp [onCircle, show (2 * (6 : ℝ) * Real.pi / 12) = Real.pi by ring]
  by_cases h3 : 4 * i = 12
  · obtain rfl : i = 3 := by omega
    simp [onCircle, show (2 * (3 : ℝ) * Real.pi / 12) = Real.pi / 2 by ring]
  by_cases h9 : 4 * i = 3 * 12
  · obtain rfl : i = 9 := by omega
    simp [onCircle, show (2 * (9 : ℝ) * Real.pi / 12) = Real.pi / 2 + Real.pi by ring, Real.cos_add_pi, Real.sin_add_pi]
  rw [if_neg h0, if_neg h6, if_neg h3, if_neg h9]
  simp [onCircle]

theorem onCircle_mod (k : ℤ) : onCircle (k % 12) = onCircle k := by
  have h : (k : ℝ) = ((k % 12 : ℤ) : ℝ) + 12 * ((k / 12 : ℤ) : ℝ) := by
    have := Int.emod_add_mul_ediv k 12
    exact_mod_cast this.symm
  unfold onCircle
  have e : 2 * (k : ℝ) * Real.pi / 12 = 2 * ((k % 12 : ℤ) : ℝ) * Real.pi / 12 + ((k / 12 : ℤ) : ℝ) * (2 * Real.pi) := by
    rw [h]; push_cast; ring_nf
  rw [e, Real.cos_add_int_mul_two_pi, Real.sin_add_int_mul_two_pi]

theorem dihedral_onCircle (m : ℕ) (refl flip : Bool) (k : ℤ) : dihedral m refl flip (onCircle k) = onCircle (if refl then m - k else m + k) := by
  cases refl
  · simp only [dihedral, onCircle, Bool.false_eq_true, if_false]
    have e : 2 * ((m + k : ℤ) : ℝ) * Real.pi / 12 = 2 * m * Real.pi / 12 + 2 * k * Real.pi / 12 := by push_cast; ring
    rw [e, Real.cos_add, Real.sin_add]
    ext <;> simp
  · simp only [dihedral, onCircle, if_true]
    have e : 2 * ((m - k : ℤ) : ℝ) * Real.pi / 12 = 2 * m * Real.pi / 12 - 2 * k * Real.pi / 12 := by push_cast; ring
    rw [e, Real.cos_sub, Real.sin_sub]
    ext <;> simp
    ring

theorem circle_invariant (m : ℕ) (refl flip : Bool) : Invariant (dihedral m refl flip) circle := by
  unfold Invariant
  rw [circle_eq, List.map_map]
  have hp : ∀ r : Bool, ∀ m < 12, ((List.range 12).map fun i => if r then (m + (12 - i)) % 12 else (m + i) % 12).Perm (List.range 12) := by
    decide
  have h := (hp refl (m % 12) (Nat.mod_lt _ (by omega))).map (fun i : ℕ => (onCircle i, (1 : ℝ) / 12))
  rw [List.map_map] at h
  refine List.Perm.trans (List.Perm.of_eq (List.map_congr_left fun i hi => ?_)) h
  rw [List.mem_range] at hi
  simp only [Function.comp_apply, Prod.mk.injEq, and_true]
  rw [dihedral_onCircle, ← onCircle_mod]
  congr 1
  cases refl
  · simp only [Bool.false_eq_true, if_false]
    push_cast
    omega
  · simp only [if_true]
    push_cast [show i ≤ 12 by omega]
    omega

end Mpb.Moment

import Mathlib.Algebra.Order.Floor.Ring
import Mathlib.Analysis.Convex.Basic
import Mathlib.Data.Real.Archimedean
import Mathlib.Tactic.Linarith
import Mathlib.Tactic.Ring
import Mathlib.Tactic.Module

/-!
# Specification: piecewise-linear interpolation of data on the integer lattice

This file is a **specification**, independent of the code: `lin g u` joins the values `g i` at the integers by
straight lines, `trilin` does so in each of three directions, `near`/`trinear` take the value of the nearest integer
(the lower one in a tie).
-/

namespace Mpb.Spec

variable {E : Type*} [AddCommGroup E] [Module ℝ E]

/-- The piecewise-linear function through the values `g i` at the integers. -/
noncomputable def lin (g : ℤ → E) (u : ℝ) : E := (1 - Int.fract u) • g ⌊u⌋ + Int.fract u • g (⌊u⌋ + 1)

/-- Linear interpolation in each of three directions. -/
noncomputable def trilin (g : ℤ → ℤ → ℤ → E) (u v w : ℝ) : E :=
  lin (fun i => lin (fun j => lin (fun k => g i j k) w) v) u

/-- The value at the nearest integer (the lower one if `u` is half way). -/
noncomputable def near {E : Type*} (g : ℤ → E) (u : ℝ) : E := if Int.fract u ≤ 1 / 2 then g ⌊u⌋ else g (⌊u⌋ + 1)

/-- The value at the nearest lattice point. -/
noncomputable def trinear {E : Type*} (g : ℤ → ℤ → ℤ → E) (u v w : ℝ) : E :=
  near (fun i => near (fun j => near (fun k => g i j k) w) v) u

/-- At an integer the interpolation takes the given value. -/
theorem lin_int (g : ℤ → E) (m : ℤ) : lin g (m : ℝ) = g m := by
  simp [lin]

theorem trilin_int (g : ℤ → ℤ → ℤ → E) (i j k : ℤ) : trilin g i j k = g i j k := by
  simp [trilin, lin_int]

theorem near_int {E : Type*} (g : ℤ → E) (m : ℤ) : near g (m : ℝ) = g m := by
  simp [near]

theorem trinear_int {E : Type*} (g : ℤ → ℤ → ℤ → E) (i j k : ℤ) : trinear g i j k = g i j k := by
  simp [trinear, near_int]

/-- The interpolation stays in every convex set that contains the data. -/
theorem lin_mem {S : Set E} (hS : Convex ℝ S) {g : ℤ → E} (hg : ∀ i, g i ∈ S) (u : ℝ) : lin g u ∈ S := by
  apply hS (hg _) (hg _) _ (Int.fract_nonneg u) (by ring)
  have := Int.fract_lt_one u
  linarith

theorem trilin_mem {S : Set E} (hS : Convex ℝ S) {g : ℤ → ℤ → ℤ → E} (hg : ∀ i j k, g i j k ∈ S) (u v w : ℝ) :
    trilin g u v w ∈ S :=
  lin_mem hS (fun _ => lin_mem hS (fun _ => lin_mem hS (fun _ => hg _ _ _) _) _) _

theorem trinear_mem {E : Type*} {S : Set E} {g : ℤ → ℤ → ℤ → E} (hg : ∀ i j k, g i j k ∈ S) (u v w : ℝ) :
    trinear g u v w ∈ S := by
  unfold trinear near
  split_ifs <;> exact hg _ _ _

/-- Translation of the data. -/
theorem lin_add_int (g : ℤ → E) (u : ℝ) (m : ℤ) : lin g (u + m) = lin (fun i => g (i + m)) u := by
  simp only [lin, Int.fract_add_intCast, Int.floor_add_intCast]
  congr 3
  ring

theorem near_add_int {E : Type*} (g : ℤ → E) (u : ℝ) (m : ℤ) : near g (u + m) = near (fun i => g (i + m)) u := by
  simp only [near, Int.fract_add_intCast, Int.floor_add_intCast]
  congr 2
  ring

theorem trilin_add_int (g : ℤ → ℤ → ℤ → E) (u v w : ℝ) (a b c : ℤ) :
    trilin g (u + a) (v + b) (w + c) = trilin (fun i j k => g (i + a) (j + b) (k + c)) u v w := by
  simp only [trilin, lin_add_int]

theorem trinear_add_int {E : Type*} (g : ℤ → ℤ → ℤ → E) (u v w : ℝ) (a b c : ℤ) :
    trinear g (u + a) (v + b) (w + c) = trinear (fun i j k => g (i + a) (j + b) (k + c)) u v w := by
  simp only [trinear, near_add_int]

/-- The eight corners and their weights, which are nonnegative and sum to one. -/
theorem trilin_eq (g : ℤ → ℤ → ℤ → E) (u v w : ℝ) :
    trilin g u v w =
      ((1 - Int.fract u) * (1 - Int.fract v) * (1 - Int.fract w)) • g ⌊u⌋ ⌊v⌋ ⌊w⌋ +
      ((1 - Int.fract u) * (1 - Int.fract v) * Int.fract w) • g ⌊u⌋ ⌊v⌋ (⌊w⌋ + 1) +
      ((1 - Int.fract u) * Int.fract v * (1 - Int.fract w)) • g ⌊u⌋ (⌊v⌋ + 1) ⌊w⌋ +
      ((1 - Int.fract u) * Int.fract v * Int.fract w) • g ⌊u⌋ (⌊v⌋ + 1) (⌊w⌋ + 1) +
      (Int.fract u * (1 - Int.fract v) * (1 - Int.fract w)) • g (⌊u⌋ + 1) ⌊v⌋ ⌊w⌋ +
      (Int.fract u * (1 - Int.fract v) * Int.fract w) • g (⌊u⌋ + 1) ⌊v⌋ (⌊w⌋ + 1) +
      (Int.fract u * Int.fract v * (1 - Int.fract w)) • g (⌊u⌋ + 1) (⌊v⌋ + 1) ⌊w⌋ +
      (Int.fract u * Int.fract v * Int.fract w) • g (⌊u⌋ + 1) (⌊v⌋ + 1) (⌊w⌋ + 1) := by
  unfold trilin lin
  module

end Mpb.Spec

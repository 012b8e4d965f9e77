import Mathlib.LinearAlgebra.Dimension.StrongRankCondition
import Mathlib.LinearAlgebra.FiniteDimensional.Lemmas
import Mathlib.LinearAlgebra.Complex.Module

/-! # Counting vectors that split into two classes -/

namespace Mpb.Parity
open Submodule

variable {V : Type*} [AddCommGroup V] [Module ℂ V] [FiniteDimensional ℂ V]

/-- Independent vectors of a set: their number is at most the dimension of its span. -/
theorem count_span (s : Set V) (n : ℕ) : (∃ f : Fin n → V, LinearIndependent ℂ f ∧ ∀ i, f i ∈ s) ↔ n ≤ Module.finrank ℂ (span ℂ s) := by
  constructor
  · rintro ⟨f, hf, hs⟩
    have h1 := finrank_span_eq_card hf
    rw [Fintype.card_fin] at h1
    rw [← h1]
    refine Submodule.finrank_mono (span_mono ?_)
    rintro _ ⟨i, rfl⟩
    exact hs i
  · intro h
    obtain ⟨f, hf, -, hli⟩ := exists_fun_fin_finrank_span_eq ℂ s
    exact ⟨fun i => f (Fin.castLE h i), hli.comp _ (Fin.castLE_injective h), fun i => hf _⟩

/-- If the vectors of a set split into two classes, the numbers of independent ones add up. -/
theorem count_split (s : Set V) (p : V →ₗ[ℂ] V) (hp : ∀ x, p (p x) = p x) (h1 : ∀ x ∈ s, p x ≠ 0 → p x ∈ s) (h2 : ∀ x ∈ s, x - p x ≠ 0 → x - p x ∈ s)
    (n : ℕ) : (∃ f : Fin n → V, LinearIndependent ℂ f ∧ ∀ i, f i ∈ s) ↔
      ∃ a b, n = a + b ∧ (∃ f : Fin a → V, LinearIndependent ℂ f ∧ ∀ i, f i ∈ {x | x ∈ s ∧ p x = x}) ∧
        ∃ g : Fin b → V, LinearIndependent ℂ g ∧ ∀ i, g i ∈ {x | x ∈ s ∧ p x = 0} := by
  simp only [count_span]
  set sE : Set V := {x | x ∈ s ∧ p x = x} with hE
  set sO : Set V := {x | x ∈ s ∧ p x = 0} with hO
  have hsup : span ℂ s = span ℂ sE ⊔ span ℂ sO := by
    refine le_antisymm (span_le.2 fun x hx => ?_) (sup_le (span_mono fun x hx => hx.1) (span_mono fun x hx => hx.1))
    have e : x = p x + (x - p x) := by abel
    rw [e]
    refine add_mem_sup ?_ ?_
    · by_cases h : p x = 0
      · rw [h]; exact zero_mem _
      · exact subset_span ⟨h1 x hx h, hp x⟩
    · by_cases h : x - p x = 0
      · rw [h]; exact zero_mem _
      · exact subset_span ⟨h2 x hx h, by rw [map_sub, hp, sub_self]⟩
  have hinf : span ℂ sE ⊓ span ℂ sO = ⊥ := by
    rw [eq_bot_iff]
    rintro x ⟨hx1, hx2⟩
    have e1 : p x = x := by
      have : span ℂ sE ≤ LinearMap.ker (p - LinearMap.id) := span_le.2 fun y hy => by
        simp [hy.2]
      have := this hx1
      simpa [sub_eq_zero] using this
    have e2 : p x = 0 := by
      have : span ℂ sO ≤ LinearMap.ker p := span_le.2 fun y hy => hy.2
      exact this hx2
    rw [mem_bot, ← e1, e2]
  have hd := Submodule.finrank_sup_add_finrank_inf_eq (span ℂ sE) (span ℂ sO)
  rw [hinf, finrank_bot, add_zero, ← hsup] at hd
  rw [hd]
  constructor
  · intro h
    exact ⟨min n (Module.finrank ℂ (span ℂ sE)), n - min n (Module.finrank ℂ (span ℂ sE)), by omega, min_le_right _ _, by omega⟩
  · rintro ⟨a, b, rfl, ha, hb⟩
    exact add_le_add ha hb

end Mpb.Parity

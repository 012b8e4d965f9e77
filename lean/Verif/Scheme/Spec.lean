import Mathlib.Data.Nat.Prime.Basic
import Verif.Scheme.Model

/-!
# Specifications for the Scheme-level helpers

These definitions do not use the model's loops.
-/

namespace Mpb.Scheme.Spec

/-- All prime factors are at most 7. -/
def Smooth7 (n : ℕ) : Prop := ∀ p : ℕ, p.Prime → p ∣ n → p ≤ 7

/-- `f` is a frequency of band `b` (0-based) at k-point `k` in the table of computed frequencies. -/
def IsFreq {F κ : Type*} (table : List (List F × κ)) (b : ℕ) (f : F) (k : κ) : Prop :=
  ∃ row ∈ table, row.1[b]? = some f ∧ row.2 = k

/-- `r` is the true range of band `b` in the table: its minimum and maximum are attained at the recorded k-points and
bound all frequencies of that band. -/
structure IsRange {F κ : Type*} [LE F] (table : List (List F × κ)) (b : ℕ) (r : BandRange F κ) : Prop where
  min_attained : ∃ k, r.kmin = some k ∧ IsFreq table b r.min k
  max_attained : ∃ k, r.kmax = some k ∧ IsFreq table b r.max k
  bounds : ∀ f k, IsFreq table b f k → r.min ≤ f ∧ f ≤ r.max

end Mpb.Scheme.Spec

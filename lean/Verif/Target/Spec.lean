import Verif.Maxwell.OperatorProps

/-!
# Specification: shifted operators, positive definite operators on bands

A band is its list of pairs of transverse amplitudes, one pair per planewave.  Independent of the model.
-/

namespace Mpb.Target.Spec

open Mpb.Maxwell Mpb.Maxwell.Spec

/-- `M x - w² x`. -/
noncomputable def shift (M : (ℕ → ℂ × ℂ) → ℕ → ℂ × ℂ) (w : ℝ) (x : ℕ → ℂ × ℂ) : ℕ → ℂ × ℂ := fun G =>
  ((M x G).1 - (w : ℂ) ^ 2 * (x G).1, (M x G).2 - (w : ℂ) ^ 2 * (x G).2)

/-- `z x`. -/
noncomputable def times (z : ℂ) (x : ℕ → ℂ × ℂ) : ℕ → ℂ × ℂ := fun G => (z * (x G).1, z * (x G).2)

/-- Hermitian for the sum over `N` planewaves. -/
def Hermitian (N : ℕ) (M : (ℕ → ℂ × ℂ) → ℕ → ℂ × ℂ) : Prop := ∀ x y, inner N x (M y) = (starRingEnd ℂ) (inner N y (M x))

/-- Positive definite on the first `N` planewaves. -/
def PosDef (N : ℕ) (M : (ℕ → ℂ × ℂ) → ℕ → ℂ × ℂ) : Prop := ∀ x, (∃ G < N, x G ≠ (0, 0)) → 0 < (inner N x (M x)).re

/-- The two FFT directions are inverse to each other up to the factor `N` (FFTW's unnormalised transforms). -/
def InverseTransforms (d : OpData) : Prop :=
  ∀ G < d.N, ∀ G' < d.N, ∑ r ∈ Finset.range d.N, d.Wb G r * d.Wf r G' = if G = G' then (d.N : ℂ) else 0

end Mpb.Target.Spec

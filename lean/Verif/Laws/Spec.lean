import Verif.Flux.Spec
import Verif.Velocity.Hellmann

/-! # Specification vocabulary for Maxwell's equations -/

namespace Mpb.Laws.Spec

open Mpb.Maxwell Mpb.Maxwell.Spec Mpb.Flux.Spec

/-- The coefficient of the planewave `exp(i (k+G)·x)` in a field given by its values on the grid (the transform of the values divided by
the number of points): on the grid the field is the sum of its planewaves. -/
noncomputable def coef (d : OpData) (F : ℕ → V3 ℂ) (G : ℕ) : V3 ℂ := V3.smul (1 / (d.N : ℂ)) (transform d.Wb d.N F G)

/-- The coefficient of a planewave in the curl of the field, without the factor `i`: `(k+G) ×` the coefficient in the field. -/
noncomputable def curl (d : OpData) (K : ℕ → V3 ℝ) (F : ℕ → V3 ℂ) (G : ℕ) : V3 ℂ := V3.cross (toC (K G)) (coef d F G)

/-- The coefficient of a planewave in the divergence of the field, without the factor `i`. -/
noncomputable def divergence (d : OpData) (K : ℕ → V3 ℝ) (F : ℕ → V3 ℂ) (G : ℕ) : ℂ :=
  (K G).x * (coef d F G).x + (K G).y * (coef d F G).y + (K G).z * (coef d F G).z

/-- The integral over a cell of volume `Vol` of `a* · b`. -/
noncomputable def overlap (N : ℕ) (Vol : ℝ) (a b : ℕ → V3 ℂ) : ℂ := (Vol / N : ℂ) * ∑ r ∈ Finset.range N, herm (a r) (b r)

end Mpb.Laws.Spec

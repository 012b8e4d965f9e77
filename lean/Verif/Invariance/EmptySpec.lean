import Verif.Invariance.Spec
import Mathlib.Data.Set.Card

/-! # Specification: planewaves of the empty lattice -/

namespace Mpb.Invariance.Spec
open Mpb.Maxwell

/-- The reciprocal-lattice coordinates kept in a direction with `n` grid points: 0 if `n = 1`, else `n` successive numbers from `1 - n/2` (rounded) on. -/
noncomputable def kept (n : ℕ) : Finset ℤ := if n = 1 then {0} else Finset.Icc (1 - ((n / 2 : ℕ) : ℤ)) ((n : ℤ) - ((n / 2 : ℕ) : ℤ))

/-- The kept planewaves whose Cartesian wavevector `K = k + G` has `|K|² ≤ q`; `K` is given by its products with the lattice vectors. -/
def waves (P : Problem) (q : ℝ) : Set (V3 ℤ) := {g | g.x ∈ kept P.nx ∧ g.y ∈ kept P.ny ∧ g.z ∈ kept P.nz ∧
  ∃ K : V3 ℝ, V3.dot P.Rm.c0 K = P.k.x + g.x ∧ V3.dot P.Rm.c1 K = P.k.y + g.y ∧ V3.dot P.Rm.c2 K = P.k.z + g.z ∧ V3.dot K K ≤ q}

/-- The stored inverse of a scalar material constant. -/
noncomputable def scalar (c : ℝ) : HMat := ⟨1 / c, 1 / c, 1 / c, 0, 0, 0⟩

end Mpb.Invariance.Spec

import Verif.Invariance.Frame
import Verif.Parity.Model

/-!
# Specification: two-dimensional problems, TE and TM modes
-/

namespace Mpb.Parity.Spec
open Mpb.Maxwell Mpb.Maxwell.Spec Mpb.Invariance Mpb.Invariance.Spec

/-- A tensor that does not mix `z` with `x` and `y`. -/
def Flat (M : HMat) : Prop := M.m02 = 0 ∧ M.m12 = 0

/-- A two-dimensional problem: one grid point along `z`, the third lattice vector along `z`, the wavevector in the `xy` plane, materials whose tensors do not
mix `z` with `x` and `y`. -/
structure TwoD (P : Problem) : Prop where
  nz : P.nz = 1
  lattice : P.Rm.c2.x = 0 ∧ P.Rm.c2.y = 0
  k : P.k.z = 0
  eps : ∀ r < P.nx * P.ny, Flat (P.epsInv r)
  mu : ∀ r < P.nx * P.ny, Flat (invMu P r)

/-- The Fourier amplitude of the magnetic field (of `B`, with a permeability) for the planewave `G`, as a Cartesian vector. -/
noncomputable def amplitude (P : Problem) (X : ℕ → ℂ) (G : ℕ) : V3 ℂ := cart (P.data.kpg G) (X (G * 2), X (G * 2 + 1))

/-- The magnetic field is along `z` everywhere. -/
def IsTE (P : Problem) (X : ℕ → ℂ) : Prop := ∀ G < P.nx * P.ny, (amplitude P X G).x = 0 ∧ (amplitude P X G).y = 0

/-- The magnetic field is in the `xy` plane everywhere. -/
def IsTM (P : Problem) (X : ℕ → ℂ) : Prop := ∀ G < P.nx * P.ny, (amplitude P X G).z = 0

/-- There are at least `n` linearly independent modes of the given class with squared frequencies not above `lam`. -/
def ClassModesUpTo (d : OpData) (C : (ℕ → ℂ) → Prop) (lam : ℝ) (n : ℕ) : Prop :=
  ∃ X : Fin n → ℕ → ℂ, (∀ c : Fin n → ℂ, (∀ a < d.N * 2, ∑ i, c i * X i a = 0) → ∀ i, c i = 0) ∧ ∀ i, C (X i) ∧ ∃ mu ≤ lam, IsMode d mu (X i)

end Mpb.Parity.Spec

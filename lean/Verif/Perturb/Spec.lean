import Verif.Perturb.Model
import Verif.Invariance.Spec
import Verif.Epsilon.Spec
import Mathlib.Analysis.Calculus.Deriv.Basic

/-!
# Specification: bands as functions of the materials
-/

namespace Mpb.Perturb.Spec
open Mpb.Maxwell Mpb.Invariance Mpb.Invariance.Spec

/-- `lam` is the squared frequency of band `n` (counted from 1, from below, with multiplicity): there are `n` independent modes up to it, and not
up to any smaller one. -/
def BandIs (d : OpData) (n : ℕ) (lam : ℝ) : Prop := ModesUpTo d lam n ∧ ∀ mu < lam, ¬ ModesUpTo d mu n

/-- The modes of squared frequency `lam` are multiples of each other. -/
def Simple (d : OpData) (lam : ℝ) : Prop := ∀ X Y, IsMode d lam X → IsMode d lam Y → ∃ c : ℂ, ∀ a < d.N * 2, Y a = c * X a

/-- The same grid, lattice and wavevector with other stored tensors. -/
def withTensors (P : Problem) (e : ℕ → HMat) (u : Option (ℕ → HMat)) : Problem := ⟨P.nx, P.ny, P.nz, P.nfb, P.Rm, P.k, e, u⟩

/-- The permittivity multiplied by `s` at the points of a region (so the stored inverse divided by `s`). -/
noncomputable def scaleEps (P : Problem) (R : ℕ → Prop) [DecidablePred R] (s : ℝ) : Problem :=
  withTensors P (fun r => if R r then times (1 / s) (P.epsInv r) else P.epsInv r) P.muInv

/-- The permeability multiplied by `s` at the points of a region. -/
noncomputable def scaleMu (P : Problem) (R : ℕ → Prop) [DecidablePred R] (s : ℝ) : Problem :=
  withTensors P P.epsInv (some fun r => if R r then times (1 / s) (invMu P r) else invMu P r)

/-- The three indices of an address in row-major order. -/
def gridIndex (P : Problem) (r : ℕ) : ℕ × ℕ × ℕ := (r / P.nz / P.ny, r / P.nz % P.ny, r % P.nz)

/-- The dielectric constant shown by `output-epsilon` for a stored inverse tensor (the reciprocal of the mean of its two smaller eigenvalues) lies
between `lo` and `hi`. -/
def DielectricIn (lo hi : ℝ) (epsInv : HMat) : Prop :=
  ∃ τ : Fin 3 → ℝ, Epsilon.Spec.Eigenvalues (Tensor.Spec.toMatrix epsInv) τ ∧ τ 0 + τ 1 ≠ 0 ∧ lo ≤ 1 / ((τ 0 + τ 1) / 2) ∧ 1 / ((τ 0 + τ 1) / 2) ≤ hi

/-- A coordinate of point `i` of `n`, the cell of size `s` being centered on the origin. -/
noncomputable def coordinate (n : ℕ) (s : ℝ) (i : ℕ) : ℝ := if n = 1 then 0 else ((i : ℝ) / n - 1 / 2) * s

/-- The position of a grid point in the basis of the lattice, the cell having the given size. -/
noncomputable def position (P : Problem) (size : V3 ℝ) (r : ℕ) : V3 ℝ :=
  ⟨coordinate P.nx size.x (gridIndex P r).1, coordinate P.ny size.y (gridIndex P r).2.1, coordinate P.nz size.z (gridIndex P r).2.2⟩

/-- The last object of the list that contains the point is there and is not made of `nothing`. -/
def InsideObjects (objects : List Body) (p : V3 ℝ) : Prop :=
  ∃ before o after, objects = before ++ o :: after ∧ o.contains p = true ∧ o.self = false ∧ ∀ o' ∈ after, o'.contains p = false

/-- The grid of a problem in the general build. -/
def gridOf (P : Problem) : Mpb.Field.Shape := ⟨P.nx, P.ny, P.nz, false, 2 * P.nz⟩

/-- The same structure at the wavevector `k + t u`, `u` being a Cartesian vector: the component of `k` along the reciprocal vector `b_i` changes by
`t a_i · u`. -/
def alongK (P : Problem) (u : V3 ℝ) (t : ℝ) : Problem :=
  ⟨P.nx, P.ny, P.nz, P.nfb, P.Rm, ⟨P.k.x + t * V3.dot P.Rm.c0 u, P.k.y + t * V3.dot P.Rm.c1 u, P.k.z + t * V3.dot P.Rm.c2 u⟩, P.epsInv, P.muInv⟩

/-- The same structure at the Cartesian wavevector `k`: its component along the reciprocal vector `b_i` is `a_i · k`. -/
def atWave (P : Problem) (k : V3 ℝ) : Problem := ⟨P.nx, P.ny, P.nz, P.nfb, P.Rm, ⟨V3.dot P.Rm.c0 k, V3.dot P.Rm.c1 k, V3.dot P.Rm.c2 k⟩, P.epsInv, P.muInv⟩

/-- The entries of a tensor depending on a parameter have the given derivatives at 0. -/
structure TensorDeriv (f : ℝ → HMat) (f' : HMat) : Prop where
  m00 : HasDerivAt (fun t => (f t).m00) f'.m00 0
  m11 : HasDerivAt (fun t => (f t).m11) f'.m11 0
  m22 : HasDerivAt (fun t => (f t).m22) f'.m22 0
  m01 : HasDerivAt (fun t => (f t).m01) f'.m01 0
  m02 : HasDerivAt (fun t => (f t).m02) f'.m02 0
  m12 : HasDerivAt (fun t => (f t).m12) f'.m12 0

end Mpb.Perturb.Spec

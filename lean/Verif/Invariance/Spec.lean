import Verif.Invariance.Model
import Verif.Moment.Spec
import Verif.Maxwell.Operator
import Mathlib.Algebra.Module.Equiv.Basic
import Mathlib.LinearAlgebra.Matrix.Notation

/-!
# Specification: modes of the discretised problem, and changes of it
-/

namespace Mpb.Invariance.Spec
open Mpb.Maxwell

/-- `X` (two amplitudes per planewave) is a mode of squared frequency `lam`: not zero, and `maxwell_operator` applied to it is `lam` times
`maxwell_muinv_operator` applied to it, whatever the buffers contained before. -/
def IsMode (d : OpData) (lam : ℝ) (X : ℕ → ℂ) : Prop :=
  (∃ a < d.N * 2, X a ≠ 0) ∧ ∀ (bufs bufs' : ℕ → ℕ → ℂ) (Y Y' : ℕ → ℂ), ∃ R B, maxwellOperator d 1 bufs X Y = some R ∧
    muinvOperator d 1 bufs' X Y' = some B ∧ ∀ a < d.N * 2, R a = (lam : ℂ) * B a

/-- The two problems have the same number of planewaves, and there is a one-to-one linear map, keeping the norm, that takes the modes of
the first exactly to those of the second with the squared frequencies multiplied by `c`: the same spectrum with the same multiplicities. -/
def SameModes (d d' : OpData) (c : ℝ) : Prop :=
  d'.N = d.N ∧ ∃ U : (ℕ → ℂ) ≃ₗ[ℂ] (ℕ → ℂ),
    (∀ X, ∑ a ∈ Finset.range (d.N * 2), Complex.normSq (U X a) = ∑ a ∈ Finset.range (d.N * 2), Complex.normSq (X a)) ∧
    ∀ lam X, IsMode d lam X ↔ IsMode d' (c * lam) (U X)

/-- All lattice vectors multiplied by `s`. -/
def scaled (s : ℝ) (R : M3 ℝ) : M3 ℝ := ⟨V3.smul s R.c0, V3.smul s R.c1, V3.smul s R.c2⟩

/-- All entries of a tensor multiplied by `t`. -/
noncomputable def times (t : ℝ) (e : HMat) : HMat := ⟨t * e.m00, t * e.m11, t * e.m22, t * e.m01, t * e.m02, t * e.m12⟩

/-- The address of a point of a grid in row-major order. -/
def address (n : V3 ℕ) (x y z : ℕ) : ℕ := (x * n.y + y) * n.z + z

/-- The field `f'` is the field `f` moved cyclically by `t` grid steps. -/
def Moved (n t : V3 ℕ) (f f' : ℕ → HMat) : Prop := ∀ x < n.x, ∀ y < n.y, ∀ z < n.z,
  f' (address n ((x + t.x) % n.x) ((y + t.y) % n.y) ((z + t.z) % n.z)) = f (address n x y z)

/-- Both absent, or both present and related. -/
def Both (r : (ℕ → HMat) → (ℕ → HMat) → Prop) (f f' : Option (ℕ → HMat)) : Prop :=
  (f = none ∧ f' = none) ∨ ∃ g g', f = some g ∧ f' = some g' ∧ r g g'

/-- The same structure with the origin of the cell `t` grid steps away. -/
structure Translated (t : V3 ℕ) (P P' : Problem) : Prop where
  nx : P'.nx = P.nx
  ny : P'.ny = P.ny
  nz : P'.nz = P.nz
  nfb : P'.nfb = P.nfb
  lattice : P'.Rm = P.Rm
  k : P'.k = P.k
  eps : Moved ⟨P.nx, P.ny, P.nz⟩ t P.epsInv P'.epsInv
  mu : Both (Moved ⟨P.nx, P.ny, P.nz⟩ t) P.muInv P'.muInv

/-- All lattice vectors multiplied by the matrix `Q`. -/
def rotated (Q : Matrix (Fin 3) (Fin 3) ℝ) (R : M3 ℝ) : M3 ℝ := ⟨Mpb.Moment.app Q R.c0, Mpb.Moment.app Q R.c1, Mpb.Moment.app Q R.c2⟩

/-- The same structure turned (or reflected) as a whole by the orthogonal matrix `Q`: the lattice vectors turn, and so does the tensor at each
point; the wavevector keeps its coordinates in the basis of the reciprocal vectors, so it turns too. -/
structure Rotated (Q : Matrix (Fin 3) (Fin 3) ℝ) (P P' : Problem) : Prop where
  nx : P'.nx = P.nx
  ny : P'.ny = P.ny
  nz : P'.nz = P.nz
  nfb : P'.nfb = P.nfb
  k : P'.k = P.k
  lattice : P'.Rm = rotated Q P.Rm
  eps : ∀ r < P.nx * P.ny * P.nz, Mpb.Moment.Turned Q (P.epsInv r) (P'.epsInv r)
  mu : Both (fun f f' => ∀ r < P.nx * P.ny * P.nz, Mpb.Moment.Turned Q (f r) (f' r)) P.muInv P'.muInv

/-- The same structure with the lattice vectors listed in another order (first two exchanged, or last two exchanged). -/
structure Relisted (last : Bool) (P P' : Problem) : Prop where
  size : (⟨P'.nx, P'.ny, P'.nz⟩ : V3 ℕ) = if last then ⟨P.nx, P.nz, P.ny⟩ else ⟨P.ny, P.nx, P.nz⟩
  nfb : P'.nfb = P.nfb
  lattice : P'.Rm = if last then ⟨P.Rm.c0, P.Rm.c2, P.Rm.c1⟩ else ⟨P.Rm.c1, P.Rm.c0, P.Rm.c2⟩
  k : P'.k = if last then ⟨P.k.x, P.k.z, P.k.y⟩ else ⟨P.k.y, P.k.x, P.k.z⟩
  eps : ∀ x < P.nx, ∀ y < P.ny, ∀ z < P.nz, P'.epsInv (if last then address ⟨P.nx, P.nz, P.ny⟩ x z y else address ⟨P.ny, P.nx, P.nz⟩ y x z) =
    P.epsInv (address ⟨P.nx, P.ny, P.nz⟩ x y z)
  mu : Both (fun f f' => ∀ x < P.nx, ∀ y < P.ny, ∀ z < P.nz, f' (if last then address ⟨P.nx, P.nz, P.ny⟩ x z y else address ⟨P.ny, P.nx, P.nz⟩ y x z) =
    f (address ⟨P.nx, P.ny, P.nz⟩ x y z)) P.muInv P'.muInv

/-- The tensor `e'` is the complex conjugate of `e`, entry by entry (a real tensor is its own conjugate). -/
def Conjugate (e e' : HMat) : Prop := Mpb.Tensor.Spec.toMatrix e' = (Mpb.Tensor.Spec.toMatrix e).map (starRingEnd ℂ)

/-- The same structure with the tensors conjugated (unchanged where they are real), looked at with the wavevector `k'`. -/
structure Reversed (k' : V3 ℝ) (P P' : Problem) : Prop where
  nx : P'.nx = P.nx
  ny : P'.ny = P.ny
  nz : P'.nz = P.nz
  nfb : P'.nfb = P.nfb
  lattice : P'.Rm = P.Rm
  k : P'.k = k'
  eps : ∀ r < P.nx * P.ny * P.nz, Conjugate (P.epsInv r) (P'.epsInv r)
  mu : Both (fun f f' => ∀ r < P.nx * P.ny * P.nz, Conjugate (f r) (f' r)) P.muInv P'.muInv

/-- Modes correspond one to one under a conjugate-linear, norm-keeping map, with the same squared frequencies: again the same spectrum with
the same multiplicities. -/
def MirrorModes (d d' : OpData) : Prop :=
  d'.N = d.N ∧ ∃ U : (ℕ → ℂ) ≃ₛₗ[starRingEnd ℂ] (ℕ → ℂ),
    (∀ X, ∑ a ∈ Finset.range (d.N * 2), Complex.normSq (U X a) = ∑ a ∈ Finset.range (d.N * 2), Complex.normSq (X a)) ∧
    ∀ lam X, IsMode d lam X ↔ IsMode d' lam (U X)

/-- Sum of the smallest and the largest reciprocal-lattice coordinate kept in a direction with `n` grid points: none is kept besides 0 if
`n = 1`, `-(n/2) + 1` to `n/2` for even `n`, `-(n-3)/2` to `(n+1)/2` for odd `n ≥ 3`. -/
def skew (n : ℕ) : ℕ := if n = 1 then 0 else if n % 2 = 0 then 1 else 2

/-- There are at least `n` linearly independent modes with squared frequencies not above `lam`. -/
def ModesUpTo (d : OpData) (lam : ℝ) (n : ℕ) : Prop :=
  ∃ X : Fin n → ℕ → ℂ, (∀ c : Fin n → ℂ, (∀ a < d.N * 2, ∑ i, c i * X i a = 0) → ∀ i, c i = 0) ∧ ∀ i, ∃ mu ≤ lam, IsMode d mu (X i)

/-- `v* e v ≤ v* e' v` for every complex vector. -/
def TensorLe (e e' : HMat) : Prop := ∀ v : Fin 3 → ℂ,
  (star v ⬝ᵥ Matrix.mulVec (Mpb.Tensor.Spec.toMatrix e) v).re ≤ (star v ⬝ᵥ Matrix.mulVec (Mpb.Tensor.Spec.toMatrix e') v).re

/-- The stored tensors `i`, `i'` are the inverses of positive definite tensors of which the second is not below the first. -/
def Denser (i i' : HMat) : Prop := ∃ e e', Mpb.Tensor.Spec.toMatrix e * Mpb.Tensor.Spec.toMatrix i = 1 ∧
  Mpb.Tensor.Spec.toMatrix e' * Mpb.Tensor.Spec.toMatrix i' = 1 ∧ Mpb.Tensor.Spec.PosDef e ∧ TensorLe e e'

/-- The inverse permeability at a grid point; 1 if none is stored. -/
def invMu (P : Problem) (r : ℕ) : HMat :=
  match P.muInv with
  | none => ⟨1, 1, 1, 0, 0, 0⟩
  | some f => f r

/-- The second problem has the same grid, lattice and wavevector, and nowhere a smaller permittivity or permeability. -/
structure Loaded (P P' : Problem) : Prop where
  nx : P'.nx = P.nx
  ny : P'.ny = P.ny
  nz : P'.nz = P.nz
  nfb : P'.nfb = P.nfb
  lattice : P'.Rm = P.Rm
  k : P'.k = P.k
  eps : ∀ r < P.nx * P.ny * P.nz, Denser (P.epsInv r) (P'.epsInv r)
  mu : ∀ r < P.nx * P.ny * P.nz, Denser (invMu P r) (invMu P' r)

end Mpb.Invariance.Spec

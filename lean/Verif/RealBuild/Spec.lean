import Verif.RealBuild.Model
import Verif.Invariance.Spec

/-! # Specification: the complex problem that a run of the inversion-symmetric build stands for -/

namespace Mpb.RealBuild.Spec
open Mpb.Maxwell Mpb.Invariance Mpb.Invariance.Spec

/-- The grid point (or planewave) at the end of the opposite vector. -/
def opposite (n : V3 ℕ) (x y z : ℕ) : ℕ := address n ((n.x - x) % n.x) ((n.y - y) % n.y) ((n.z - z) % n.z)

/-- The tensor at the opposite point is the complex conjugate (for real tensors: the same). -/
def Inverted (n : V3 ℕ) (f : ℕ → HMat) : Prop := ∀ x < n.x, ∀ y < n.y, ∀ z < n.z, Conjugate (f (address n x y z)) (f (opposite n x y z))

/-- The structure has inversion symmetry about the origin. -/
def Symmetric (P : Problem) : Prop :=
  Inverted ⟨P.nx, P.ny, P.nz⟩ P.epsInv ∧ ∀ f, P.muInv = some f → Inverted ⟨P.nx, P.ny, P.nz⟩ f

/-- The stored half of a field of tensors: of the last of the dimensions with more than one point, the first half. -/
def HalfStored (n : V3 ℕ) (f h : ℕ → HMat) : Prop :=
  if n.z = 1 then
    if n.y = 1 then ∀ x ≤ n.x / 2, x < n.x → h x = f x
    else ∀ x < n.x, ∀ y ≤ n.y / 2, y < n.y → h (x * (n.y / 2 + 1) + y) = f (address n x y 0)
  else ∀ x < n.x, ∀ y < n.y, ∀ z ≤ n.z / 2, z < n.z → h ((x * n.y + y) * (n.z / 2 + 1) + z) = f (address n x y z)

/-- The data of the inversion-symmetric build for the problem `P`. -/
structure Represents (d : RData) (P : Problem) : Prop where
  nx : d.nx = P.nx
  ny : d.ny = P.ny
  nz : d.nz = P.nz
  nfb : d.nfb = P.nfb
  kpg : d.kpg = P.data.kpg
  eps : HalfStored ⟨P.nx, P.ny, P.nz⟩ P.epsInv d.epsInv
  mu : Both (HalfStored ⟨P.nx, P.ny, P.nz⟩) P.muInv d.muInv

/-- FFTW's definition of the complex-to-real transform: if the numbers given are the stored half of a sequence `X` whose value at the opposite
index is the conjugate, the output is the (backward) transform of `X`.  (Nothing is assumed about other inputs.) -/
def IsC2R (n : V3 ℕ) (w : Fftw) : Prop :=
  ∀ X h : ℕ → ℂ, (∀ x < n.x, ∀ y < n.y, ∀ z < n.z, X (opposite n x y z) = (starRingEnd ℂ) (X (address n x y z))) →
    (∀ q < fftOutputSize n.x n.y n.z, h q = X (q / (lastDim n.x n.y n.z / 2 + 1) * lastDim n.x n.y n.z + q % (lastDim n.x n.y n.z / 2 + 1))) →
    ∀ G < n.x * n.y * n.z, (w.c2r h G : ℂ) = ∑ r ∈ Finset.range (n.x * n.y * n.z), dft 1 n.x n.y n.z G r * X r

/-- Real amplitudes as complex ones. -/
def asComplex (X : ℕ → ℝ) : ℕ → ℂ := fun a => X a

/-- A mode of the inversion-symmetric build, in real amplitudes. -/
def IsModeR (w : Fftw) (d : RData) (lam : ℝ) (X : ℕ → ℝ) : Prop :=
  (∃ a < d.N * 2, X a ≠ 0) ∧ ∀ (bufs bufs' : ℕ → ℕ → ℝ) (Y Y' : ℕ → ℝ), ∃ R B, maxwellOperatorR w d 1 bufs X Y = some R ∧
    muinvOperatorR w d 1 bufs' X Y' = some B ∧ ∀ a < d.N * 2, R a = lam * B a

/-- There are at least `n` linearly independent modes of the inversion-symmetric build with squared frequencies not above `lam`. -/
def ModesUpToR (w : Fftw) (d : RData) (lam : ℝ) (n : ℕ) : Prop :=
  ∃ X : Fin n → ℕ → ℝ, (∀ c : Fin n → ℝ, (∀ a < d.N * 2, ∑ i, c i * X i a = 0) → ∀ i, c i = 0) ∧ ∀ i, ∃ mu ≤ lam, IsModeR w d mu (X i)

/-- Column `b` of a block of `p` bands of the inversion-symmetric build is a mode of squared frequency `lam`, normalised as the eigensolver
does: the sum of its amplitudes times those of `maxwell_muinv_operator` applied to it is 1. -/
def NormalisedModeR (w : Fftw) (d : RData) (p : ℕ) (H : ℕ → ℝ) (b : ℕ) (lam : ℝ) : Prop :=
  b < p ∧ ∀ (bufs bufs' : ℕ → ℕ → ℝ) (Y Y' : ℕ → ℝ), ∃ R B, maxwellOperatorR w d p bufs H Y = some R ∧
    muinvOperatorR w d p bufs' H Y' = some B ∧ (∀ a < d.N * 2, R (a * p + b) = lam * B (a * p + b)) ∧
    ∑ a ∈ Finset.range (d.N * 2), H (a * p + b) * B (a * p + b) = 1

end Mpb.RealBuild.Spec

import Verif.Invariance.Spec

/-! # Specification: exchanging permittivity and permeability -/

namespace Mpb.Invariance.Spec
open Mpb.Maxwell

/-- The second structure has the same grid, lattice and wavevector; its permittivity is the permeability of the first and its permeability (1 if none is
stored) the permittivity of the first. -/
structure Exchanged (P P' : Problem) : Prop where
  nx : P'.nx = P.nx
  ny : P'.ny = P.ny
  nz : P'.nz = P.nz
  nfb : P'.nfb = P.nfb
  lattice : P'.Rm = P.Rm
  k : P'.k = P.k
  eps : ∀ r < P.nx * P.ny * P.nz, P'.epsInv r = invMu P r
  mu : ∀ r < P.nx * P.ny * P.nz, invMu P' r = P.epsInv r

/-- All permittivities and permeabilities are positive definite. -/
def Passive (P : Problem) : Prop := ∀ r < P.nx * P.ny * P.nz, Mpb.Tensor.Spec.PosDef (P.epsInv r) ∧ Mpb.Tensor.Spec.PosDef (invMu P r)

/-- The problem whose tensors are those stored in a `maxwell_data`. -/
def problemOf (nfb : ℕ) (Rm : M3 ℝ) (k : V3 ℝ) (md : Tensor.MData) : Problem :=
  ⟨md.nx, md.ny, md.nz, nfb, Rm, k, md.heap md.epsInv, md.muInv.map md.heap⟩

end Mpb.Invariance.Spec

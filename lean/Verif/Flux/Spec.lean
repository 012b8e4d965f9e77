import Verif.Flux.Model
import Verif.Field.EnergyProps

/-! # Specification vocabulary for the energy flux -/

namespace Mpb.Flux.Spec

open Mpb.Maxwell Mpb.Maxwell.Spec Mpb.Field

/-- The vector at point `r` of a complex vector field stored as an array of complex numbers. -/
def at3 (F : ℕ → ℂ) (r : ℕ) : V3 ℂ := ⟨F (3 * r), F (3 * r + 1), F (3 * r + 2)⟩

/-- `E* × H`. -/
noncomputable def fluxVec (E H : V3 ℂ) : V3 ℂ :=
  ⟨(starRingEnd ℂ) E.y * H.z - (starRingEnd ℂ) E.z * H.y, (starRingEnd ℂ) E.z * H.x - (starRingEnd ℂ) E.x * H.z,
    (starRingEnd ℂ) E.x * H.y - (starRingEnd ℂ) E.y * H.x⟩

/-- The component along the real vector `u` of the real part. -/
def along (u : V3 ℝ) (S : V3 ℂ) : ℝ := u.x * S.x.re + u.y * S.y.re + u.z * S.z.re

/-- The integral over a cell of volume `Vol` of a function on a grid of `N` points. -/
noncomputable def integral (N : ℕ) (Vol : ℝ) (f : ℕ → ℝ) : ℝ := Vol / N * ∑ r ∈ Finset.range N, f r

/-- The tensor with inverse `M` is Hermitian positive and nowhere below `a`: `0 ≤ v* M v ≤ |v|²/a`. -/
def AtLeast (a : ℝ) (M : HMat) : Prop := PSD M ∧ ∀ v : V3 ℂ, a * (herm v (M.mulVec v)).re ≤ (herm v v).re

/-- The permeability is nowhere below `m` (it is 1 if none is given). -/
def MuAtLeast (d : OpData) (m : ℝ) : Prop :=
  match d.muInv with
  | none => m ≤ 1
  | some mu => ∀ r < d.N, AtLeast m (mu r)

end Mpb.Flux.Spec

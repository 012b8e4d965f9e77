import Verif.Velocity.Hellmann

/-! # Specification vocabulary for the group velocity -/

namespace Mpb.Velocity.Spec
open Mpb.Maxwell Mpb.Maxwell.Spec Filter Topology

/-- `b_0, b_1, b_2` are the reciprocal lattice vectors (over 2π) of the columns of `Rm`: `a_i · b_j = δ_ij`. -/
def IsReciprocal (Rm Gm : M3 ℝ) : Prop :=
  V3.dot Rm.c0 Gm.c0 = 1 ∧ V3.dot Rm.c0 Gm.c1 = 0 ∧ V3.dot Rm.c0 Gm.c2 = 0 ∧
  V3.dot Rm.c1 Gm.c0 = 0 ∧ V3.dot Rm.c1 Gm.c1 = 1 ∧ V3.dot Rm.c1 Gm.c2 = 0 ∧
  V3.dot Rm.c2 Gm.c0 = 0 ∧ V3.dot Rm.c2 Gm.c1 = 0 ∧ V3.dot Rm.c2 Gm.c2 = 1

/-- The Cartesian vector with reciprocal coordinates `κ`. -/
def recipVec (Gm : M3 ℝ) (κ : V3 ℝ) : V3 ℝ := V3.smul κ.x Gm.c0 + V3.smul κ.y Gm.c1 + V3.smul κ.z Gm.c2

/-- `v` is the gradient of `f` at the Cartesian point `k`: the derivative along every direction `w` is `v · w`. -/
def IsGradient (f : V3 ℝ → ℝ) (k v : V3 ℝ) : Prop := ∀ w : V3 ℝ, HasDerivAt (fun t : ℝ => f (k + V3.smul t w)) (V3.dot v w) 0

/-- The position-space field of `u × h_G`. -/
noncomputable def ucrossField (d : OpData) (u : V3 ℝ) (h : ℕ → ℂ × ℂ) : ℕ → V3 ℂ :=
  transform d.Wf d.N (fun G => V3.cross (toC u) (cart (d.kpg G) (h G)))

/-- `Re ⟨ curl h | ε⁻¹ | u × h ⟩`, with the normalisation of the operator. -/
noncomputable def velocityForm (d : OpData) (K : ℕ → V3 ℝ) (u : V3 ℝ) (h : ℕ → ℂ × ℂ) : ℝ :=
  (gridForm d.N d.epsInv (curlField d K h) (ucrossField d u h)).re

/-- The same operator data with other wavevectors. -/
def withK (d : OpData) (kp : ℕ → KData) : OpData := ⟨d.od, d.ld, d.nfb, kp, d.epsInv, d.muInv, d.Wf, d.Wb⟩

/-- A band followed in the direction `u` of wavevectors: at `k + t u` the operator data is `D t`, the band is band `b` of the
array `H t` with eigenvalue `lam t = ω²`. -/
structure BandFamily (D : ℝ → OpData) (K : ℕ → V3 ℝ) (u : V3 ℝ) (p b : ℕ) (H : ℝ → ℕ → ℂ) (lam : ℝ → ℝ) : Prop where
  /-- only the wavevectors change -/
  same : ∀ t, D t = withK (D 0) (D t).kpg
  nfb : 0 < (D 0).nfb
  hb : b < p
  adjoint : AdjointTransforms (D 0)
  inverse : InverseTransforms (D 0)
  /-- the stored basis is that of `K_G + t u` -/
  basis : ∀ t, ∀ G < (D 0).N, IsBasis (K G + V3.smul t u) ((D t).kpg G)
  /-- `A x = ω² μ⁻¹ x`, in terms of the operators the eigensolver is given -/
  eigen : ∀ᶠ t in 𝓝 (0 : ℝ), ∀ bufs Xo R S, maxwellOperator (D t) p bufs (H t) Xo = some R → muinvOperator (D t) p bufs (H t) Xo = some S →
    ∀ G < (D 0).N, band p R b G = ((lam t : ℂ) * (band p S b G).1, (lam t : ℂ) * (band p S b G).2)
  /-- `x* μ⁻¹ x = 1` -/
  norm : ∀ bufs Xo S, muinvOperator (D 0) p bufs (H 0) Xo = some S → Maxwell.Spec.inner (D 0).N (band p (H 0) b) (band p S b) = 1
  /-- the Cartesian field is continuous in `t` -/
  contx : ∀ G < (D 0).N, ContinuousAt (fun t => (cart ((D t).kpg G) (band p (H t) b G)).x) 0
  conty : ∀ G < (D 0).N, ContinuousAt (fun t => (cart ((D t).kpg G) (band p (H t) b G)).y) 0
  contz : ∀ G < (D 0).N, ContinuousAt (fun t => (cart ((D t).kpg G) (band p (H t) b G)).z) 0
  /-- the band has a positive frequency -/
  pos : 0 < lam 0

/-- The permeability, if there is one, is positive definite, and the magnetic field `μ⁻¹ B` of the band is, like `B`, transverse
to the wavevector of every planewave. -/
def TransverseH (d : OpData) (x : ℕ → ℂ × ℂ) : Prop :=
  ∀ mu, d.muInv = some mu → (∀ r < d.N, PD (mu r)) ∧
    ∀ G < d.N, ∃ v : ℂ × ℂ, muField d mu (fun G => cart (d.kpg G) (x G)) G = cart (d.kpg G) v

/-- `freqs` holds the frequency of the band: `ω`, or `ω²` when negative dielectric constants are allowed. -/
def FreqOf (neg : Bool) (freq lam : ℝ) : Prop := freq = if neg then lam else Real.sqrt lam

end Mpb.Velocity.Spec

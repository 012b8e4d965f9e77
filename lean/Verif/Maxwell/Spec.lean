import Verif.Maxwell.Model

/-! # Specification vocabulary for the planewave basis -/

namespace Mpb.Maxwell.Spec

/-- `kd` is right for the wavevector `K`: magnitude, and a right-handed orthonormal pair transverse to `K`. -/
structure IsBasis (K : V3 ℝ) (kd : KData) : Prop where
  kmag_nonneg : 0 ≤ kd.kmag
  kmag_sq : kd.kmag ^ 2 = K.x ^ 2 + K.y ^ 2 + K.z ^ 2
  mm : kd.m.x * kd.m.x + kd.m.y * kd.m.y + kd.m.z * kd.m.z = 1
  nn : kd.n.x * kd.n.x + kd.n.y * kd.n.y + kd.n.z * kd.n.z = 1
  mn : kd.m.x * kd.n.x + kd.m.y * kd.n.y + kd.m.z * kd.n.z = 0
  mK : kd.m.x * K.x + kd.m.y * K.y + kd.m.z * K.z = 0
  nK : kd.n.x * K.x + kd.n.y * K.y + kd.n.z * K.z = 0
  rh : K = V3.smul kd.kmag (V3.cross kd.m kd.n)

/-- A real vector as a complex one. -/
noncomputable def toC (v : V3 ℝ) : V3 ℂ := v.map (fun r : ℝ => (r : ℂ))

/-- The Cartesian vector `v0 m + v1 n`. -/
noncomputable def cart (kd : KData) (v : ℂ × ℂ) : V3 ℂ := V3.smul v.1 (toC kd.m) + V3.smul v.2 (toC kd.n)

/-- Hermitian product `Σ conj(a_i) b_i`. -/
noncomputable def herm (a b : V3 ℂ) : ℂ :=
  (starRingEnd ℂ) a.x * b.x + (starRingEnd ℂ) a.y * b.y + (starRingEnd ℂ) a.z * b.z

/-- Hermitian product of transverse amplitudes. -/
noncomputable def hermT (a b : ℂ × ℂ) : ℂ := (starRingEnd ℂ) a.1 * b.1 + (starRingEnd ℂ) a.2 * b.2

/-- The wavevector `k + g1 G1 + g2 G2 + g3 G3`. -/
def waveVec (G1 G2 G3 k : V3 ℝ) (g : V3 ℤ) : V3 ℝ :=
  V3.smul (k.x + g.x) G1 + V3.smul (k.y + g.y) G2 + V3.smul (k.z + g.z) G3

end Mpb.Maxwell.Spec

import Verif.Parity.Model
import Verif.Maxwell.OperatorLemmas

/-! # Specification vocabulary for parities -/

namespace Mpb.Parity.Spec

/-- Sum of two bands, and multiple of a band. -/
def add (x y : ℕ → ℂ × ℂ) : ℕ → ℂ × ℂ := fun G => x G + y G
noncomputable def scale (s : ℂ) (x : ℕ → ℂ × ℂ) : ℕ → ℂ × ℂ := fun G => (s * (x G).1, s * (x G).2)

/-- The planewave `(x, y, -z)` of planewave `(x, y, z)` of an `nx × ny × nz` grid stored row-major (indices modulo `nz`). -/
def flipZ (nz G : ℕ) : ℕ := G / nz * nz + (nz - G % nz) % nz

/-- The planewave `(x, -y, z)`. -/
def flipY (ny nz G : ℕ) : ℕ := (G / nz / ny * ny + (ny - G / nz % ny) % ny) * nz + G % nz

/-- Mirror `z → -z` on the two transverse amplitudes of H: the `m` amplitude keeps, the `n` amplitude changes its sign. -/
def mirrorZ (nz : ℕ) (x : ℕ → ℂ × ℂ) : ℕ → ℂ × ℂ := fun G => ((x (flipZ nz G)).1, -(x (flipZ nz G)).2)

/-- Mirror `y → -y` on the two transverse amplitudes of H: the `m` amplitude changes its sign. -/
def mirrorY (ny nz : ℕ) (x : ℕ → ℂ × ℂ) : ℕ → ℂ × ℂ := fun G => (-(x (flipY ny nz G)).1, (x (flipY ny nz G)).2)

/-- The part of `x` with eigenvalue `s = ±1` of the mirror `P`. -/
noncomputable def part (P : (ℕ → ℂ × ℂ) → (ℕ → ℂ × ℂ)) (s : ℂ) (x : ℕ → ℂ × ℂ) : ℕ → ℂ × ℂ :=
  scale (1 / 2) (add x (scale s (P x)))

end Mpb.Parity.Spec

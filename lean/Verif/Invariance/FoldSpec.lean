import Verif.Invariance.Spec

/-! # Specification of C107: supercells -/

namespace Mpb.Invariance.Spec
open Mpb.Maxwell

/-- The same crystal described by a cell `s.x × s.y × s.z` times as large: the lattice vectors and the numbers of grid points are multiplied, and
the stored tensors repeat.  The wavevector (in units of the smaller reciprocal vectors of the large cell) is arbitrary. -/
structure Supercell (s : V3 ℕ) (P P' : Problem) : Prop where
  nx : P'.nx = s.x * P.nx
  ny : P'.ny = s.y * P.ny
  nz : P'.nz = s.z * P.nz
  nfb : P'.nfb = P.nfb
  lattice : P'.Rm = ⟨V3.smul (s.x : ℝ) P.Rm.c0, V3.smul (s.y : ℝ) P.Rm.c1, V3.smul (s.z : ℝ) P.Rm.c2⟩
  eps : ∀ x < P'.nx, ∀ y < P'.ny, ∀ z < P'.nz, P'.epsInv (address ⟨P'.nx, P'.ny, P'.nz⟩ x y z) =
    P.epsInv (address ⟨P.nx, P.ny, P.nz⟩ (x % P.nx) (y % P.ny) (z % P.nz))
  mu : Both (fun f f' => ∀ x < P'.nx, ∀ y < P'.ny, ∀ z < P'.nz, f' (address ⟨P'.nx, P'.ny, P'.nz⟩ x y z) =
    f (address ⟨P.nx, P.ny, P.nz⟩ (x % P.nx) (y % P.ny) (z % P.nz))) P.muInv P'.muInv

/-- A whole reciprocal-lattice vector by which a folded wavevector is moved, because the planewaves kept with an odd number `n` of grid points
do not lie evenly about zero: none if `n` is even. -/
def foldShift (s n r : ℕ) : ℤ :=
  if n % 2 = 0 then 0 else if n = 1 then (if max 1 (s / 2) ≤ r then 1 else 0) else (if r < s / 2 then -1 else 0)

/-- The coordinate of the `r`-th wavevector of the small cell that belongs to the coordinate `k` of a wavevector of the large cell, `0 ≤ r < s`. -/
noncomputable def foldCoord (s n : ℕ) (k : ℝ) (r : ℕ) : ℝ := (k - r) / s + foldShift s n r

/-- The small cell at the wavevector number `r = (r₁, r₂, r₃)` that is folded onto the wavevector `k` of the large cell. -/
noncomputable def folded (s : V3 ℕ) (P : Problem) (k : V3 ℝ) (r : ℕ × ℕ × ℕ) : Problem :=
  { P with k := ⟨foldCoord s.x P.nx k.x r.1, foldCoord s.y P.ny k.y r.2.1, foldCoord s.z P.nz k.z r.2.2⟩ }

/-- The numbers of the folded wavevectors. -/
def folds (s : V3 ℕ) : Finset (ℕ × ℕ × ℕ) := Finset.range s.x ×ˢ Finset.range s.y ×ˢ Finset.range s.z

/-- The modes of the large cell are put together from the modes of the small cell at the folded wavevectors: every field of the large cell has one
part for each of them (linearly, one to one, keeping the norm), and it is a mode of squared frequency `lam` if and only if it is not zero
and each of its parts is zero or a mode of squared frequency `lam`. -/
def FoldedModes (R : Finset (ℕ × ℕ × ℕ)) (d : ℕ × ℕ × ℕ → OpData) (N : ℕ) (d' : OpData) : Prop :=
  ∃ part : ℕ × ℕ × ℕ → (ℕ → ℂ) →ₗ[ℂ] (ℕ → ℂ),
    (∀ X, ∑ a ∈ Finset.range (d'.N * 2), Complex.normSq (X a) = ∑ r ∈ R, ∑ a ∈ Finset.range (N * 2), Complex.normSq (part r X a)) ∧
    (∀ Y : ℕ × ℕ × ℕ → ℕ → ℂ, ∃ X, ∀ r ∈ R, ∀ a < N * 2, part r X a = Y r a) ∧
    ∀ lam X, IsMode d' lam X ↔ (∃ r ∈ R, ∃ a < N * 2, part r X a ≠ 0) ∧
      ∀ r ∈ R, (∀ a < N * 2, part r X a = 0) ∨ IsMode (d r) lam (part r X)

end Mpb.Invariance.Spec

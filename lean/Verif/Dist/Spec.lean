import Verif.Dist.Model

/-! # Specification vocabulary for runs on several processes -/

namespace Mpb.Dist.Spec

open Mpb.Maxwell

variable {P : ℕ}

/-- Every row below `n` belongs to exactly one process, and no process holds a row that does not exist. -/
structure Covers (l : Layout P) (n : ℕ) : Prop where
  inside : ∀ r, 0 < l.size r → l.start r + l.size r ≤ n
  owner : ∀ x < n, ∃! r, l.start r ≤ x ∧ x < l.start r + l.size r

/-- The arrays `Xs` of the processes are the pieces of the array `X` of one process, with `w` numbers for each row of the grid. -/
def Pieces {α : Type*} (l : Layout P) (w : ℕ) (X : ℕ → α) (Xs : Fin P → ℕ → α) : Prop :=
  ∀ r, ∀ a < l.size r * w, Xs r a = X (l.start r * w + a)

/-- The same for the real-space arrays, with rows of the second dimension in the order y, x, z. -/
def TransposedPieces {α : Type*} (l : Layout P) (nx ny nz : ℕ) (M : ℕ → α) (Ms : Fin P → ℕ → α) : Prop :=
  ∀ r, ∀ y < l.size r, ∀ x < nx, ∀ z < nz, Ms r ((y * nx + x) * nz + z) = M ((x * ny + (l.start r + y)) * nz + z)

/-- Either one process and the processes together all stop with an error, or none does and the arrays are the pieces. -/
def SameOutcome {α : Type*} (l : Layout P) (w : ℕ) (R : Option (ℕ → α)) (Rs : Option (Fin P → ℕ → α)) : Prop :=
  match R, Rs with
  | some X, some Xs => Pieces l w X Xs
  | none, none => True
  | _, _ => False

/-- The data of several processes describe the same problem as the data `D` of one process. -/
structure SameProblem (d : OpData P) (D : Maxwell.OpData) : Prop where
  points : D.od * D.ld = d.nx * d.ny * d.nz
  nfb : D.nfb = d.nfb
  forward : D.Wf = d.Wf
  backward : D.Wb = d.Wb
  rows : Covers d.lx d.nx
  columns : Covers d.ly d.ny
  /-- the program refuses one-dimensional grids with MPI, maxwell.c:128 -/
  rank : 0 < d.ny ∧ 0 < d.nz ∧ (1 < d.ny ∨ 1 < d.nz)
  vectors : Pieces d.lx (d.ny * d.nz) D.kpg d.kpg
  eps : TransposedPieces d.ly d.nx d.ny d.nz D.epsInv d.epsInv
  mu : match D.muInv, d.muInv with
    | none, none => True
    | some M, some Ms => TransposedPieces d.ly d.nx d.ny d.nz M Ms
    | _, _ => False

end Mpb.Dist.Spec

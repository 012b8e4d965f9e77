import Verif.Mat.Model
import Mathlib.LinearAlgebra.Matrix.NonsingularInverse
import Mathlib.LinearAlgebra.Matrix.Trace
import Mathlib.LinearAlgebra.Matrix.ConjTranspose

/-! # Specification vocabulary: matrices stored row-major -/

namespace Mpb.Mat.Spec

/-- The `r × c` matrix stored row-major at `P` with row length `ld`. -/
def mat (h : Heap) (P : Ptr) (ld r c : ℕ) : Matrix (Fin r) (Fin c) ℂ := Matrix.of fun i j => h P.arr (P.off + (i * ld + j))

/-- The `r × c` matrix `op(A)`. -/
def opMat (t : Trans) (h : Heap) (P : Ptr) (ld r c : ℕ) : Matrix (Fin r) (Fin c) ℂ :=
  match t with
  | .N => mat h P ld r c
  | .T => (mat h P ld c r).transpose
  | .C => (mat h P ld c r).conjTranspose

/-- The address `a` of array `k` is part of the `r × c` block at `P`. -/
def InBlock (P : Ptr) (ld r c : ℕ) (k a : ℕ) : Prop := k = P.arr ∧ ∃ i < r, ∃ j < c, a = P.off + (i * ld + j)

/-- Nothing outside the block has changed. -/
def Frame (h h' : Heap) (P : Ptr) (ld r c : ℕ) : Prop := ∀ k a, ¬ InBlock P ld r c k a → h' k a = h k a

/-- The matrix of an `evectmatrix` and of an `sqmatrix`. -/
def emat (h : Heap) (X : EM) : Matrix (Fin X.n) (Fin X.p) ℂ := mat h X.data X.p X.n X.p
def smat (h : Heap) (A : SQ) : Matrix (Fin A.p) (Fin A.p) ℂ := mat h A.data A.p A.p A.p

end Mpb.Mat.Spec

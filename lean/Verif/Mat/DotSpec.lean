import Verif.Mat.Spec
import Verif.Mat.DotModel
import Mathlib.LinearAlgebra.Matrix.Charpoly.Basic
import Mathlib.Algebra.Polynomial.Roots
import Mathlib.LinearAlgebra.UnitaryGroup

/-! # Specification: overlaps, paths of overlaps -/

namespace Mpb.Mat.Spec
open Polynomial

/-- What is assumed about computing the magnetic field of bands: it multiplies the block of bands by a matrix `A` (the inverse permeability between the
planewaves), writes to the columns of the work array, and changes nothing but that array and the transform arrays `fft`. -/
def FieldContract (n : ℕ) (A : Matrix (Fin n) (Fin n) ℂ) (H : EM) (fft : ℕ → Prop) (hfb : EM → ℤ → Heap → Heap) : Prop :=
  ∀ (W : EM) (ib : ℕ) (h : Heap), ib + W.p ≤ H.p → mat (hfb W ib h) W.data W.p n W.p = A * mat h (H.data.add ib) H.p n W.p ∧
    ∀ k a, k ≠ W.data.arr → ¬ fft k → hfb W ib h k a = h k a

/-- Without a permeability the field is the band itself. -/
def FieldIs (n : ℕ) (A : Matrix (Fin n) (Fin n) ℂ) (H : EM) (fft : ℕ → Prop) : Option (EM → ℤ → Heap → Heap) → Prop
  | none => A = 1
  | some f => FieldContract n A H fft f

/-- What LAPACK's `geev` promises on the column-major array: the zeros of the characteristic polynomial with their multiplicities; only the array changes
(the work arrays are its own). -/
def GeevContract (geev : Ptr → ℕ → Heap → Option (Heap × List ℂ)) : Prop :=
  ∀ P p h h' l, geev P p h = some (h', l) → (l : Multiset ℂ) = (Matrix.charpoly (mat h P p p p).transpose).roots ∧ ∀ k a, k ≠ P.arr → h' k a = h k a

/-- The product of the overlaps of successive blocks `E 0, ..., E s` of `p` bands on a path of `s` steps; in step `k` the field of block `k + 1` is
`A k` times its bands. -/
def pathProduct {n p : ℕ} (A : ℕ → Matrix (Fin n) (Fin n) ℂ) (E : ℕ → Matrix (Fin n) (Fin p) ℂ) : ℕ → Matrix (Fin p) (Fin p) ℂ
  | 0 => 1
  | s + 1 => pathProduct A E s * ((E s).conjTranspose * (A s * E (s + 1)))

end Mpb.Mat.Spec

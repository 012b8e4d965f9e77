import Verif.Core.Vec
import Mathlib.Analysis.Complex.Basic

/-!
# Packed tensors

`symmetric_matrix` of maxwell.h:38-68.  `HMat` is the `WITH_HERMITIAN_EPSILON` layout (real diagonal, complex upper
triangle), `SMat` the default layout (six reals).
-/

namespace Mpb

/-- `symmetric_matrix`, maxwell.h:38-56 (`WITH_HERMITIAN_EPSILON`): `m01` etc. are complex, the lower triangle is implied. -/
@[ext] structure HMat where
  m00 : ℝ
  m11 : ℝ
  m22 : ℝ
  m01 : ℂ
  m02 : ℂ
  m12 : ℂ

/-- `symmetric_matrix`, maxwell.h:57-59 (default build), over any type of numbers. -/
@[ext] structure SMat (F : Type*) where
  m00 : F
  m01 : F
  m02 : F
  m11 : F
  m12 : F
  m22 : F
deriving DecidableEq, Repr

/-- `assign_symmatrix_vector`, maxwell_op.c:352-366 (`WITH_HERMITIAN_EPSILON`; the accumulate macros of scalar.h expanded).
The three input values are read before the first write. -/
noncomputable def HMat.mulVec (m : HMat) (v : V3 ℂ) : V3 ℂ :=
  let mult := fun (b c : ℂ) => (⟨b.re * c.re - b.im * c.im, b.re * c.im + b.im * c.re⟩ : ℂ)
  let conjMult := fun (b c : ℂ) => (⟨b.re * c.re + b.im * c.im, b.re * c.im - b.im * c.re⟩ : ℂ)
  ⟨⟨m.m00 * v.x.re, m.m00 * v.x.im⟩ + mult m.m01 v.y + mult m.m02 v.z,
   ⟨m.m11 * v.y.re, m.m11 * v.y.im⟩ + conjMult m.m01 v.x + mult m.m12 v.z,
   ⟨m.m22 * v.z.re, m.m22 * v.z.im⟩ + conjMult m.m02 v.x + conjMult m.m12 v.y⟩

/-- `assign_symmatrix_vector`, maxwell_op.c:368-375 (default build). -/
noncomputable def SMat.mulVecC (m : SMat ℝ) (v : V3 ℂ) : V3 ℂ :=
  ⟨⟨m.m00 * v.x.re + m.m01 * v.y.re + m.m02 * v.z.re, m.m00 * v.x.im + m.m01 * v.y.im + m.m02 * v.z.im⟩,
   ⟨m.m01 * v.x.re + m.m11 * v.y.re + m.m12 * v.z.re, m.m01 * v.x.im + m.m11 * v.y.im + m.m12 * v.z.im⟩,
   ⟨m.m02 * v.x.re + m.m12 * v.y.re + m.m22 * v.z.re, m.m02 * v.x.im + m.m12 * v.y.im + m.m22 * v.z.im⟩⟩

/-- The real tensor as a Hermitian one. -/
noncomputable def SMat.toH (m : SMat ℝ) : HMat := ⟨m.m00, m.m11, m.m22, m.m01, m.m02, m.m12⟩

/-- The two builds agree on real tensors. -/
theorem SMat.mulVecC_eq (m : SMat ℝ) (v : V3 ℂ) : m.mulVecC v = m.toH.mulVec v := by
  ext <;> apply Complex.ext <;> simp [SMat.mulVecC, HMat.mulVec, SMat.toH] <;> ring

/-- Component `c` of a vector. -/
def V3.get {F : Type*} (v : V3 F) : ℕ → F
  | 0 => v.x
  | 1 => v.y
  | _ => v.z

end Mpb

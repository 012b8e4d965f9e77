import Verif.Common
import Verif.Core.Vec
import Verif.Core.Mem
import Verif.Core.Sym
import Mathlib.Analysis.Complex.Basic

/-!
# Dielectric tensors: model

Models the tensor arithmetic of src/maxwell/maxwell_eps.c (inversion, positive-definiteness test, rotation, averaging meshes,
`set_maxwell_dielectric`, `set_maxwell_mu`, `check_maxwell_dielectric`) and the Kottke average of mpb/epsilon.c.

Numbers are exact reals (idealisation of `double`).  A tensor is an `HMat` (build with `WITH_HERMITIAN_EPSILON`) or an
`SMat ℝ` (default build).  A 3x3 array `double R[3][3]` is an `M3 ℝ` whose column `cj` holds `R[0][j], R[1][j], R[2][j]`.
-/

namespace Mpb.Tensor

/-- Outcome of a routine that divides: a value, a failed `CHECK` (the program aborts), or a division by zero, which in C
goes unnoticed and yields an infinite or NaN entry. -/
inductive Res (α : Type*) where
  | ok (a : α)
  | checkFailed
  | nonFinite

/-- Squared modulus, `CSCALAR_NORMSQR`, scalar.h:62. -/
def nsq (z : ℂ) : ℝ := z.re * z.re + z.im * z.im

/-- Determinant of a Hermitian tensor as written in maxwell_eps.c:99-102. -/
def hDet (V : HMat) : ℝ :=
  V.m00 * V.m11 * V.m22 - V.m11 * nsq V.m02 - nsq V.m01 * V.m22 - nsq V.m12 * V.m00 +
    2 * ((V.m01.re * V.m12.re - V.m01.im * V.m12.im) * V.m02.re +
         (V.m01.re * V.m12.im + V.m01.im * V.m12.re) * V.m02.im)

/-- `maxwell_sym_matrix_invert`, maxwell_eps.c:76-125 (`WITH_HERMITIAN_EPSILON`). -/
noncomputable def hInvert (V : HMat) : Res HMat :=
  open Classical in
  if V.m01.re = 0 ∧ V.m01.im = 0 ∧ V.m02.re = 0 ∧ V.m02.im = 0 ∧ V.m12.re = 0 ∧ V.m12.im = 0 then
    if V.m00 = 0 ∨ V.m11 = 0 ∨ V.m22 = 0 then .nonFinite
    else .ok ⟨1 / V.m00, 1 / V.m11, 1 / V.m22, 0, 0, 0⟩
  else
    if hDet V = 0 then .checkFailed
    else
      let d := 1 / hDet V
      .ok
        { m00 := d * (V.m11 * V.m22 - nsq V.m12)
          m11 := d * (V.m00 * V.m22 - nsq V.m02)
          m22 := d * (V.m11 * V.m00 - nsq V.m01)
          m02 := ⟨d * (V.m01.re * V.m12.re - V.m01.im * V.m12.im - V.m11 * V.m02.re),
                  -d * (-V.m01.re * V.m12.im - V.m01.im * V.m12.re + V.m11 * V.m02.im)⟩
          m01 := ⟨d * (V.m12.re * V.m02.re + V.m12.im * V.m02.im - V.m22 * V.m01.re),
                  -d * (V.m12.im * V.m02.re - V.m12.re * V.m02.im + V.m22 * V.m01.im)⟩
          m12 := ⟨d * (V.m01.re * V.m02.re + V.m01.im * V.m02.im - V.m00 * V.m12.re),
                  -d * (V.m01.im * V.m02.re - V.m01.re * V.m02.im + V.m00 * V.m12.im)⟩ }

/-- Determinant of a real tensor as written in maxwell_eps.c:140-141. -/
def sDet (V : SMat ℝ) : ℝ :=
  V.m00 * V.m11 * V.m22 - V.m02 * V.m11 * V.m02 + 2 * V.m01 * V.m12 * V.m02 - V.m01 * V.m01 * V.m22 -
    V.m12 * V.m12 * V.m00

/-- `maxwell_sym_matrix_invert`, maxwell_eps.c:126-154 (default build). -/
noncomputable def sInvert (V : SMat ℝ) : Res (SMat ℝ) :=
  open Classical in
  if V.m01 = 0 ∧ V.m02 = 0 ∧ V.m12 = 0 then
    if V.m00 = 0 ∨ V.m11 = 0 ∨ V.m22 = 0 then .nonFinite
    else .ok { m00 := 1 / V.m00, m11 := 1 / V.m11, m22 := 1 / V.m22, m01 := 0, m02 := 0, m12 := 0 }
  else
    if sDet V = 0 then .checkFailed
    else
      let d := 1 / sDet V
      .ok
        { m00 := d * (V.m11 * V.m22 - V.m12 * V.m12)
          m11 := d * (V.m00 * V.m22 - V.m02 * V.m02)
          m22 := d * (V.m11 * V.m00 - V.m01 * V.m01)
          m02 := d * (V.m01 * V.m12 - V.m11 * V.m02)
          m01 := d * (V.m12 * V.m02 - V.m01 * V.m22)
          m12 := d * (V.m01 * V.m02 - V.m00 * V.m12) }

/-- `maxwell_sym_matrix_positive_definite`, maxwell_eps.c:158-170, 177 (`WITH_HERMITIAN_EPSILON`). -/
noncomputable def hPosDef (V : HMat) : Bool :=
  let det2 := V.m00 * V.m11 - nsq V.m01
  let det3 := det2 * V.m22 - V.m11 * nsq V.m02 - nsq V.m12 * V.m00 +
    2 * ((V.m01.re * V.m12.re - V.m01.im * V.m12.im) * V.m02.re +
         (V.m01.re * V.m12.im + V.m01.im * V.m12.re) * V.m02.im)
  open Classical in decide (V.m00 > 0 ∧ det2 > 0 ∧ det3 > 0)

/-- `maxwell_sym_matrix_positive_definite`, maxwell_eps.c:158-162, 171-177 (default build). -/
noncomputable def sPosDef (V : SMat ℝ) : Bool :=
  let det2 := V.m00 * V.m11 - V.m01 * V.m01
  let det3 := det2 * V.m22 - V.m02 * V.m11 * V.m02 + 2 * V.m01 * V.m12 * V.m02 - V.m12 * V.m12 * V.m00
  open Classical in decide (V.m00 > 0 ∧ det2 > 0 ∧ det3 > 0)

/-- Six reals held in the upper triangle of a C array `double A[3][3]`, with the lower triangle it implies:
`sgn = 1` mirrors it, `sgn = -1` mirrors it negated. -/
structure Upper where
  a00 : ℝ
  a11 : ℝ
  a22 : ℝ
  a01 : ℝ
  a02 : ℝ
  a12 : ℝ

/-- One pass of maxwell_eps.c:211-214 (and 225-228): `AR = A R`, then the upper triangle of `Rᵀ AR`; the array `A` has
upper triangle `a` and lower triangle `sgn` times its mirror image. -/
def rotatePass (sgn : ℝ) (a : Upper) (R : M3 ℝ) : Upper :=
  let AR : V3 ℝ → V3 ℝ := fun c =>
    ⟨a.a00 * c.x + a.a01 * c.y + a.a02 * c.z,
     sgn * a.a01 * c.x + a.a11 * c.y + a.a12 * c.z,
     sgn * a.a02 * c.x + sgn * a.a12 * c.y + a.a22 * c.z⟩
  let RAR : V3 ℝ → V3 ℝ → ℝ := fun ci cj => ci.x * (AR cj).x + ci.y * (AR cj).y + ci.z * (AR cj).z
  ⟨RAR R.c0 R.c0, RAR R.c1 R.c1, RAR R.c2 R.c2, RAR R.c0 R.c1, RAR R.c0 R.c2, RAR R.c1 R.c2⟩

/-- `maxwell_sym_matrix_rotate(out, inp, R)`, maxwell_eps.c:197-232 (`WITH_HERMITIAN_EPSILON`), on memory cells:
`rotateMem mem out inp R` is the memory afterwards.  The two addresses may be equal (mpb/epsilon.c:330-331, 388 and
maxwell_eps.c:752 call it in place): the first pass stores the real parts before the second one loads the imaginary ones. -/
def rotateMem (mem : ℕ → HMat) (out inp : ℕ) (R : M3 ℝ) : ℕ → HMat :=
  let A := mem inp
  let re := rotatePass 1 ⟨A.m00, A.m11, A.m22, A.m01.re, A.m02.re, A.m12.re⟩ R
  let o := mem out
  let mem := Function.update mem out
    ⟨re.a00, re.a11, re.a22, ⟨re.a01, o.m01.im⟩, ⟨re.a02, o.m02.im⟩, ⟨re.a12, o.m12.im⟩⟩
  let A := mem inp
  let im := rotatePass (-1) ⟨0, 0, 0, A.m01.im, A.m02.im, A.m12.im⟩ R
  let o := mem out
  Function.update mem out
    ⟨o.m00, o.m11, o.m22, ⟨o.m01.re, im.a01⟩, ⟨o.m02.re, im.a02⟩, ⟨o.m12.re, im.a12⟩⟩

/-- The value `maxwell_sym_matrix_rotate` leaves in its output (see `rotateMem`), as a function of the input tensor. -/
def hRotate (A : HMat) (R : M3 ℝ) : HMat := rotateMem (fun _ => A) 0 0 R 0

/-- `maxwell_sym_matrix_rotate`, maxwell_eps.c:197-220 (default build). -/
def sRotate (A : SMat ℝ) (R : M3 ℝ) : SMat ℝ :=
  let re := rotatePass 1 ⟨A.m00, A.m11, A.m22, A.m01, A.m02, A.m12⟩ R
  { m00 := re.a00, m11 := re.a11, m22 := re.a22, m01 := re.a01, m02 := re.a02, m12 := re.a12 }

/-- `maxwell_rotation_matrix`, maxwell_eps.c:236-262. -/
noncomputable def rotationMatrix (n : V3 ℝ) : M3 ℝ :=
  open Classical in
  let c2 : V3 ℝ := if |n.x| > 1 / 100 ∨ |n.y| > 1 / 100 then ⟨n.y, -n.x, 0⟩ else ⟨0, -n.z, n.y⟩
  let s := 1 / Real.sqrt (c2.x * c2.x + c2.y * c2.y + c2.z * c2.z)
  let c2 : V3 ℝ := ⟨c2.x * s, c2.y * s, c2.z * s⟩
  let c1 : V3 ℝ := ⟨c2.y * n.z - c2.z * n.y, c2.z * n.x - c2.x * n.z, c2.x * n.y - c2.y * n.x⟩
  ⟨n, c1, c2⟩

/-- The `SWAP`s of mpb/epsilon.c:383-387 and maxwell_eps.c:748-751. -/
def swapRot (R : M3 ℝ) : M3 ℝ :=
  ⟨⟨R.c0.x, R.c1.x, R.c2.x⟩, ⟨R.c0.y, R.c1.y, R.c2.y⟩, ⟨R.c0.z, R.c1.z, R.c2.z⟩⟩

/-- `CSCALAR_MULT_CONJ(a, b)`, scalar.h: `a` times the conjugate of `b`. -/
def mulConj (a b : ℂ) : ℂ := ⟨a.re * b.re + a.im * b.im, a.im * b.re - a.re * b.im⟩

/-- The expressions `EXPR` of mpb/epsilon.c:335-366, identical to maxwell_eps.c:694-711: the tensor `τ(ε)` of
[Kottke, PRE 77, 036611, eq. (4)].  Division by a zero `m00` (a non-finite value in C) gives zero here; the theorems only use
it for tensors with `m00 > 0`. -/
noncomputable def tau (e : HMat) : HMat :=
  { m00 := -1 / e.m00
    m11 := e.m11 - nsq e.m01 / e.m00
    m22 := e.m22 - nsq e.m02 / e.m00
    m01 := ⟨e.m01.re / e.m00, e.m01.im / e.m00⟩
    m02 := ⟨e.m02.re / e.m00, e.m02.im / e.m00⟩
    m12 := ⟨e.m12.re - (mulConj e.m02 e.m01).re / e.m00, e.m12.im - (mulConj e.m02 e.m01).im / e.m00⟩ }

/-- `τ⁻¹`, mpb/epsilon.c:369-381 and maxwell_eps.c:734-745. -/
noncomputable def untau (d : HMat) : HMat :=
  { m00 := -1 / d.m00
    m11 := d.m11 - nsq d.m01 / d.m00
    m22 := d.m22 - nsq d.m02 / d.m00
    m01 := ⟨-d.m01.re / d.m00, -d.m01.im / d.m00⟩
    m02 := ⟨-d.m02.re / d.m00, -d.m02.im / d.m00⟩
    m12 := ⟨d.m12.re - (mulConj d.m02 d.m01).re / d.m00, d.m12.im - (mulConj d.m02 d.m01).im / d.m00⟩ }

/-- The macro `AVG` of mpb/epsilon.c:333 on every entry of the tensor. -/
noncomputable def avg (fill : ℝ) (a b : HMat) : HMat :=
  { m00 := fill * a.m00 + (1 - fill) * b.m00
    m11 := fill * a.m11 + (1 - fill) * b.m11
    m22 := fill * a.m22 + (1 - fill) * b.m22
    m01 := ⟨fill * a.m01.re + (1 - fill) * b.m01.re, fill * a.m01.im + (1 - fill) * b.m01.im⟩
    m02 := ⟨fill * a.m02.re + (1 - fill) * b.m02.re, fill * a.m02.im + (1 - fill) * b.m02.im⟩
    m12 := ⟨fill * a.m12.re + (1 - fill) * b.m12.re, fill * a.m12.im + (1 - fill) * b.m12.im⟩ }

/-- The two-medium branch of `mean_epsilon_func`, mpb/epsilon.c:319-391: `eps1` with filling fraction `fill`, `eps2` with
`1 - fill`, interface normal `n` in Cartesian coordinates (the result of 321-323).  `none` is `return 0` (zero normal).  The
`CHECK` under `DEBUG` is not modelled. -/
noncomputable def kottke (fill : ℝ) (n : V3 ℝ) (eps1 eps2 : HMat) : Option HMat :=
  open Classical in
  let norm := Real.sqrt (n.x * n.x + n.y * n.y + n.z * n.z)
  if norm = 0 then none
  else
    let norm := 1 / norm
    let Rot := rotationMatrix ⟨n.x * norm, n.y * norm, n.z * norm⟩
    let eps1 := hRotate eps1 Rot
    let eps2 := hRotate eps2 Rot
    let delta := avg fill (tau eps1) (tau eps2)
    some (hRotate (untau delta) (swapRot Rot))

/-! ## Averaging meshes and `set_maxwell_dielectric` -/

/-- `get_mesh`, maxwell_eps.c:312-322: the centre of the mesh and the product of the sizes. -/
noncomputable def getMesh (ms : V3 ℤ) : V3 ℝ × ℤ :=
  let c := fun m : ℤ => ((max m 1 - 1 : ℤ) : ℝ) * (1 / 2)
  (⟨c ms.x, c ms.y, c ms.z⟩, 1 * max ms.x 1 * max ms.y 1 * max ms.z 1)

/-- The sample points visited by the triple loops of maxwell_eps.c:419-430 and 676-690 (same loops, same expressions), in
order: `mi < mesh_size[0]`, `mj < mesh_size[1]`, `mk < mesh_size[2]` with the *unclamped* sizes.  `s` is `(s1, s2, s3)` and the
steps are `m1 = s1 / MAX2(1, mesh_size[0])` etc. (577-579). -/
noncomputable def meshPoints (ms : V3 ℤ) (s r : V3 ℝ) : List (V3 ℝ) :=
  let c := (getMesh ms).1
  (loop3 ms.x.toNat ms.y.toNat ms.z.toNat).map fun (mi, mj, mk) =>
    ⟨r.x + ((mi : ℝ) - c.x) * (s.x / ((max 1 ms.x : ℤ) : ℝ)),
     r.y + ((mj : ℝ) - c.y) * (s.y / ((max 1 ms.y : ℤ) : ℝ)),
     r.z + ((mk : ℝ) - c.z) * (s.z / ((max 1 ms.z : ℤ) : ℝ))⟩

/-- Entrywise sum, the accumulation statements of maxwell_eps.c:431-436 and 694-711. -/
noncomputable def hAdd (a b : HMat) : HMat :=
  ⟨a.m00 + b.m00, a.m11 + b.m11, a.m22 + b.m22,
   ⟨a.m01.re + b.m01.re, a.m01.im + b.m01.im⟩, ⟨a.m02.re + b.m02.re, a.m02.im + b.m02.im⟩,
   ⟨a.m12.re + b.m12.re, a.m12.im + b.m12.im⟩⟩

/-- Multiplication of every entry by a real number, maxwell_eps.c:717-731. -/
noncomputable def hScale (t : ℝ) (a : HMat) : HMat :=
  ⟨a.m00 * t, a.m11 * t, a.m22 * t, ⟨a.m01.re * t, a.m01.im * t⟩, ⟨a.m02.re * t, a.m02.im * t⟩,
   ⟨a.m12.re * t, a.m12.im * t⟩⟩

/-- The zero tensor. -/
def hZero : HMat := ⟨0, 0, 0, 0, 0, 0⟩

/-- `average_eps_inv_over_mesh`, maxwell_eps.c:402-458.  `epsilon r` is the pair `(eps, eps_inv)` the callback stores; it is
taken to be a function of the point. -/
noncomputable def averageEpsInv (epsilon : V3 ℝ → HMat × HMat) (ms : V3 ℤ) (s r : V3 ℝ) (prodInv : ℝ) : HMat :=
  open Classical in
  let a := (meshPoints ms s r).foldl (fun a q => hAdd a (epsilon q).2) hZero
  if a.m01 = 0 ∧ a.m02 = 0 ∧ a.m12 = 0 then
    ⟨a.m00 * prodInv, a.m11 * prodInv, a.m22 * prodInv, a.m01, a.m02, a.m12⟩
  else hScale prodInv a

/-- `SMALL`, maxwell_eps.c:296. -/
noncomputable def small : ℝ := 1 / 1000000

/-- The voxel corners of maxwell_eps.c:471-479, in units of the voxel sides. -/
noncomputable def corners (rank : ℕ) : List (V3 ℝ) :=
  match rank with
  | 1 => [⟨-1/2, 0, 0⟩, ⟨1/2, 0, 0⟩]
  | 2 => [⟨-1/2, -1/2, 0⟩, ⟨1/2, 1/2, 0⟩, ⟨-1/2, 1/2, 0⟩, ⟨1/2, -1/2, 0⟩]
  | _ => [⟨1/2, 1/2, 1/2⟩, ⟨1/2, 1/2, -1/2⟩, ⟨1/2, -1/2, 1/2⟩, ⟨1/2, -1/2, -1/2⟩,
          ⟨-1/2, 1/2, 1/2⟩, ⟨-1/2, 1/2, -1/2⟩, ⟨-1/2, -1/2, 1/2⟩, ⟨-1/2, -1/2, -1/2⟩]

/-- The comparison of maxwell_eps.c:491-506. -/
noncomputable def differs (a b : HMat) : Bool :=
  open Classical in
  decide (|a.m00 - b.m00| > small ∨ |a.m11 - b.m11| > small ∨ |a.m22 - b.m22| > small ∨
    |a.m01.re - b.m01.re| > small ∨ |a.m01.im - b.m01.im| > small ∨
    |a.m02.re - b.m02.re| > small ∨ |a.m02.im - b.m02.im| > small ∨
    |a.m12.re - b.m12.re| > small ∨ |a.m12.im - b.m12.im| > small)

/-- `detect_interface_via_corner_check`, maxwell_eps.c:465-512. -/
noncomputable def detectInterface (epsilon : V3 ℝ → HMat × HMat) (rank : ℕ) (s r : V3 ℝ) : Bool :=
  (corners rank).any fun c => differs (epsilon r).1 (epsilon ⟨r.x + c.x * s.x, r.y + c.y * s.y, r.z + c.z * s.z⟩).1

/-- The normal vector of maxwell_eps.c:629-653: the dipole moment of the trace of epsilon over the moment mesh, in Cartesian
coordinates.  `Rl` has the lattice vectors `R[0], R[1], R[2]` as columns.  The moment mesh (`get_moment_mesh`) is a parameter:
a list of lattice-coordinate offsets and weights. -/
noncomputable def interfaceNormal (epsilon : V3 ℝ → HMat × HMat) (moment : List (V3 ℝ × ℝ)) (Rl : M3 ℝ) (r : V3 ℝ) : V3 ℝ :=
  let m := moment.foldl (fun (acc : V3 ℝ) (p : V3 ℝ × ℝ) =>
    let e := (epsilon ⟨r.x + p.1.x, r.y + p.1.y, r.z + p.1.z⟩).1
    let t := (e.m00 + e.m11 + e.m22) * p.2
    ⟨acc.x + t * p.1.x, acc.y + t * p.1.y, acc.z + t * p.1.z⟩) (⟨0, 0, 0⟩ : V3 ℝ)
  Rl.mulVec m

/-- The Kottke average over the voxel mesh, maxwell_eps.c:656-758, given the unnormalised normal and its length. -/
noncomputable def kottkeMesh (epsilon : V3 ℝ → HMat × HMat) (ms : V3 ℤ) (s r : V3 ℝ) (prodInv : ℝ) (norm : V3 ℝ)
    (normLen : ℝ) : Res HMat :=
  let l := 1 / normLen
  let Rot := rotationMatrix ⟨norm.x * l, norm.y * l, norm.z * l⟩
  let t := (meshPoints ms s r).foldl (fun t q => hAdd t (tau (hRotate (epsilon q).1 Rot))) hZero
  let t := hScale prodInv t
  hInvert (hRotate (untau t) (swapRot Rot))

/-- Parameters of `set_maxwell_dielectric`, maxwell_eps.c:538-543: the two callbacks (`mepsilon` returning `none` is
`return 0` in C; `none` for the whole is a NULL pointer), the mesh size, the lattice, the moment mesh. -/
structure DielArgs where
  ms : V3 ℤ
  Rl : M3 ℝ
  moment : List (V3 ℝ × ℝ)
  epsilon : V3 ℝ → HMat × HMat
  mepsilon : Option (V3 ℝ → Option HMat)

/-- One iteration of the loop of `set_maxwell_dielectric`, maxwell_eps.c:584-770: the tensor stored at the grid point with
coordinate `r`.  `epsilon` is not NULL (the code calls it unconditionally at 626).  `mepsilon` is given the point only: its
other arguments are fixed for the whole call. -/
noncomputable def voxel (a : DielArgs) (rank : ℕ) (s r : V3 ℝ) : Res HMat :=
  open Classical in
  let prod := (getMesh a.ms).2
  let prodInv : ℝ := 1 / (prod : ℝ)
  if prod = 1 then .ok (a.epsilon r).2
  else match a.mepsilon.bind (fun f => f r) with
  | some m => hInvert m
  | none =>
    if detectInterface a.epsilon rank s r then
      let norm := interfaceNormal a.epsilon a.moment a.Rl r
      let len := Real.sqrt (norm.x * norm.x + norm.y * norm.y + norm.z * norm.z)
      if len > small then kottkeMesh a.epsilon a.ms s r prodInv norm len
      else .ok (averageEpsInv a.epsilon a.ms s r prodInv)
    else .ok (a.epsilon r).2

/-- The fields of `maxwell_data` used here (maxwell.h): grid, the arrays of tensors (`eps_inv` and `mu_inv` are addresses of
arrays in `heap`, `mu_inv` may be NULL), the two means and a supply of fresh addresses for `malloc`. -/
structure MData where
  nx : ℕ
  ny : ℕ
  nz : ℕ
  heap : ℕ → ℕ → HMat
  fresh : ℕ
  epsInv : ℕ
  epsInvMean : ℝ
  muInv : Option ℕ
  muInvMean : ℝ

/-- `fft_output_size` of a serial build with complex fields: `nx * ny * nz` (maxwell.c:30-247). -/
def MData.size (md : MData) : ℕ := md.nx * md.ny * md.nz

/-- The loop of `set_maxwell_dielectric` (maxwell_eps.c:584-775) over the grid points still to do: tensors stored so far and
the running `eps_inv_total`. -/
noncomputable def dielLoop (val : ℕ → ℕ → ℕ → Res HMat) (n2 n3 : ℕ) :
    List (ℕ × ℕ × ℕ) → (ℕ → HMat) × ℝ → Res ((ℕ → HMat) × ℝ)
  | [], st => .ok st
  | (i, j, k) :: l, st =>
    match val i j k with
    | .ok m => dielLoop val n2 n3 l (Function.update st.1 ((i * n2 + j) * n3 + k) m, st.2 + (m.m00 + m.m11 + m.m22))
    | .checkFailed => .checkFailed
    | .nonFinite => .nonFinite

/-- `set_maxwell_dielectric`, maxwell_eps.c:538-788, in the serial build with complex fields (`LOOP_XYZ`, xyz_loop.h:19-25). -/
noncomputable def setDielectric (md : MData) (a : DielArgs) : Res MData :=
  let s : V3 ℝ := ⟨1 / md.nx, 1 / md.ny, 1 / md.nz⟩
  let rank := if md.nz > 1 then 3 else if md.ny > 1 then 2 else 1
  let val := fun i j k : ℕ => voxel a rank s ⟨i * s.x, j * s.y, k * s.z⟩
  match dielLoop val md.ny md.nz (loop3 md.nx md.ny md.nz) (md.heap md.epsInv, 0) with
  | .ok (arr, total) =>
    .ok { md with heap := Function.update md.heap md.epsInv arr, epsInvMean := total / (3 * (md.size : ℝ)) }
  | .checkFailed => .checkFailed
  | .nonFinite => .nonFinite

/-- maxwell_eps.c:798-800: allocate the permeability array on first use.  `malloc` returns the address `fresh`. -/
def allocMu (md : MData) : MData :=
  match md.muInv with
  | none => { md with muInv := some md.fresh, fresh := md.fresh + 1 }
  | some _ => md

/-- `set_maxwell_mu`, maxwell_eps.c:790-807. -/
noncomputable def setMu (md : MData) (a : DielArgs) : Res MData :=
  let epsInv := md.epsInv
  let epsInvMean := md.epsInvMean
  let md := allocMu md
  let md : MData := { md with epsInv := md.muInv.getD 0 }
  match setDielectric md a with
  | .ok md =>
    let md : MData := { md with epsInv := epsInv }
    let md : MData := { md with muInvMean := md.epsInvMean }
    .ok { md with epsInvMean := epsInvMean }
  | .checkFailed => .checkFailed
  | .nonFinite => .nonFinite

/-- `check_maxwell_dielectric`, maxwell_eps.c:266-291: the tensors still to check, `negative_epsilon_okp`, `require_2d`. -/
noncomputable def checkLoop (negOk require2d : Bool) : List HMat → ℕ
  | [] => 0
  | m :: l =>
    if !negOk && !hPosDef m then 1
    else open Classical in
      if require2d = true ∧ (m.m02.re ≠ 0 ∨ m.m02.im ≠ 0 ∨ m.m12.re ≠ 0 ∨ m.m12.im ≠ 0) then 2
      else checkLoop negOk require2d l

/-- `check_maxwell_dielectric`: `parity` is the bit mask `EVEN_Z_PARITY = 1`, `ODD_Z_PARITY = 2` (maxwell.h:81-82). -/
noncomputable def checkDielectric (md : MData) (parity : ℕ) (negOk : Bool) : ℕ :=
  let require2d := md.nz == 1 && (parity &&& 3 != 0)
  checkLoop negOk require2d ((List.range md.size).map (md.heap md.epsInv))

end Mpb.Tensor

import Verif.Core.Vec
import Verif.Core.Mem
import Mathlib.Analysis.Complex.Basic
import Mathlib.Analysis.SpecialFunctions.Sqrt
import Mathlib.Analysis.SpecialFunctions.Trigonometric.Basic
import Mathlib.Algebra.BigOperators.Group.Finset.Basic

/-!
# Model of the planewave basis (maxwell.c, maxwell_op.c, maxwell_pre.c, compute_field_divergence)

`real` is `ℝ`, `scalar`/`scalar_complex` is `ℂ` (complex-scalar build).  The serial code path is modelled
(`local_x_start = 0`, `local_nx = nx`).
-/

namespace Mpb.Maxwell

/-- `k_data` (maxwell.h): `kmag`, and the two transverse unit vectors `m` and `n`. -/
structure KData where
  kmag : ℝ
  m : V3 ℝ
  n : V3 ℝ

/-- maxwell.c:425, 443: `cx = MAX2(1, nx/2)`, `kxi = (x >= cx) ? (x - nx) : x` (C integer division of a non-negative
number). -/
def harm (nx x : ℕ) : ℤ := if x ≥ max 1 (nx / 2) then (x : ℤ) - nx else x

/-- maxwell.c:431-433: Cartesian components of `k = k1 G1 + k2 G2 + k3 G3`. -/
def cartK (G1 G2 G3 : V3 ℝ) (k : V3 ℝ) : V3 ℝ :=
  ⟨G1.x * k.x + G2.x * k.y + G3.x * k.z, G1.y * k.x + G2.y * k.y + G3.y * k.z, G1.z * k.x + G2.z * k.y + G3.z * k.z⟩

/-- maxwell.c:453-455: `k + G` for harmonics `kxi kyi kzi` (with the minus sign of the code). -/
def kplusG (G1 G2 G3 : V3 ℝ) (k : V3 ℝ) (kxi kyi kzi : ℤ) : V3 ℝ :=
  let kc := cartK G1 G2 G3 k
  ⟨kc.x - (G1.x * kxi + G2.x * kyi + G3.x * kzi),
   kc.y - (G1.y * kxi + G2.y * kyi + G3.y * kzi),
   kc.z - (G1.z * kxi + G2.z * kyi + G3.z * kzi)⟩

/-- maxwell.c:476-489: `a * leninv` with `leninv = 1.0 / sqrt(a*a + b*b + c*c)`. -/
noncomputable def normalize (v : V3 ℝ) : V3 ℝ :=
  let leninv := 1 / Real.sqrt (v.x * v.x + v.y * v.y + v.z * v.z)
  ⟨v.x * leninv, v.y * leninv, v.z * leninv⟩

open Classical in
/-- maxwell.c:457-495: the stored data for one `k + G`. -/
noncomputable def kData (K : V3 ℝ) : KData :=
  let a := K.x * K.x + K.y * K.y + K.z * K.z
  let kmag := Real.sqrt a
  if a = 0 then ⟨kmag, ⟨0, 0, 1⟩, ⟨0, 1, 0⟩⟩
  else
    let n := if K.x = 0 ∧ K.y = 0 then (⟨0, 1, 0⟩ : V3 ℝ) else normalize (V3.cross ⟨0, 0, 1⟩ K)
    let m := normalize (V3.cross n K)
    ⟨kmag, m, n⟩

/-- `k_plus_G_normsqr`, maxwell.c:459. -/
def kNormSqr (K : V3 ℝ) : ℝ := K.x * K.x + K.y * K.y + K.z * K.z

/-- The array `k_plus_G` filled by the triple loop of `update_maxwell_data_k`, maxwell.c:442-511 (serial). -/
noncomputable def updateK (nx ny nz : ℕ) (G1 G2 G3 k : V3 ℝ) : List KData :=
  (loop3 nx ny nz).map fun i => kData (kplusG G1 G2 G3 k (harm nx i.1) (harm ny i.2.1) (harm nz i.2.2))

/-! ### Transverse/Cartesian conversions -/

/-- `assign_t2c`, maxwell_op.c:30-44. -/
noncomputable def t2c (k : KData) (v0 v1 : ℂ) : V3 ℂ :=
  ⟨⟨v0.re * k.m.x + v1.re * k.n.x, v0.im * k.m.x + v1.im * k.n.x⟩,
   ⟨v0.re * k.m.y + v1.re * k.n.y, v0.im * k.m.y + v1.im * k.n.y⟩,
   ⟨v0.re * k.m.z + v1.re * k.n.z, v0.im * k.m.z + v1.im * k.n.z⟩⟩

/-- `project_c2t`, maxwell_op.c:47-56. -/
noncomputable def c2t (k : KData) (a : V3 ℂ) (scale : ℝ) : ℂ × ℂ :=
  (⟨(a.x.re * k.m.x + a.y.re * k.m.y + a.z.re * k.m.z) * scale, (a.x.im * k.m.x + a.y.im * k.m.y + a.z.im * k.m.z) * scale⟩,
   ⟨(a.x.re * k.n.x + a.y.re * k.n.y + a.z.re * k.n.z) * scale, (a.x.im * k.n.x + a.y.im * k.n.y + a.z.im * k.n.z) * scale⟩)

/-- `assign_cross_t2c`, maxwell_op.c:64-89. -/
noncomputable def crossT2c (k : KData) (v0 v1 : ℂ) : V3 ℂ :=
  ⟨⟨(v0.re * k.n.x - v1.re * k.m.x) * k.kmag, (v0.im * k.n.x - v1.im * k.m.x) * k.kmag⟩,
   ⟨(v0.re * k.n.y - v1.re * k.m.y) * k.kmag, (v0.im * k.n.y - v1.im * k.m.y) * k.kmag⟩,
   ⟨(v0.re * k.n.z - v1.re * k.m.z) * k.kmag, (v0.im * k.n.z - v1.im * k.m.z) * k.kmag⟩⟩

/-- `assign_cross_c2t`, maxwell_op.c:97-130. -/
noncomputable def crossC2t (k : KData) (a : V3 ℂ) (scale : ℝ) : ℂ × ℂ :=
  let at0 : ℂ := ⟨a.x.re * k.m.x + a.y.re * k.m.y + a.z.re * k.m.z, a.x.im * k.m.x + a.y.im * k.m.y + a.z.im * k.m.z⟩
  let at1 : ℂ := ⟨a.x.re * k.n.x + a.y.re * k.n.y + a.z.re * k.n.z, a.x.im * k.n.x + a.y.im * k.n.y + a.z.im * k.n.z⟩
  let scale := scale * k.kmag
  (⟨-scale * at1.re, -scale * at1.im⟩, ⟨scale * at0.re, scale * at0.im⟩)

/-- `assign_ucross_t2c`, maxwell_op.c:134-164. -/
noncomputable def ucrossT2c (u : V3 ℝ) (k : KData) (v0 v1 : ℂ) : V3 ℂ :=
  let vx_r := v0.re * k.m.x + v1.re * k.n.x
  let vy_r := v0.re * k.m.y + v1.re * k.n.y
  let vz_r := v0.re * k.m.z + v1.re * k.n.z
  let vx_i := v0.im * k.m.x + v1.im * k.n.x
  let vy_i := v0.im * k.m.y + v1.im * k.n.y
  let vz_i := v0.im * k.m.z + v1.im * k.n.z
  ⟨⟨u.y * vz_r - u.z * vy_r, u.y * vz_i - u.z * vy_i⟩,
   ⟨u.z * vx_r - u.x * vz_r, u.z * vx_i - u.x * vz_i⟩,
   ⟨u.x * vy_r - u.y * vx_r, u.x * vy_i - u.y * vx_i⟩⟩

/-! ### Preconditioner -/

open Classical in
/-- `FIX_DENOM`, maxwell_pre.c:36. -/
noncomputable def fixDenom (x : ℝ) : ℝ := if x = 0 then 1 else x

/-- `assign_crossinv_t2c`, maxwell_pre.c:150-172. -/
noncomputable def crossinvT2c (k : KData) (v0 v1 : ℂ) : V3 ℂ :=
  let kmagInv := -1 / fixDenom k.kmag
  ⟨⟨(v0.re * k.n.x - v1.re * k.m.x) * kmagInv, (v0.im * k.n.x - v1.im * k.m.x) * kmagInv⟩,
   ⟨(v0.re * k.n.y - v1.re * k.m.y) * kmagInv, (v0.im * k.n.y - v1.im * k.m.y) * kmagInv⟩,
   ⟨(v0.re * k.n.z - v1.re * k.m.z) * kmagInv, (v0.im * k.n.z - v1.im * k.m.z) * kmagInv⟩⟩

/-- `assign_crossinv_c2t`, maxwell_pre.c:177-207. -/
noncomputable def crossinvC2t (k : KData) (a : V3 ℂ) (scale : ℝ) : ℂ × ℂ :=
  let at0 : ℂ := ⟨a.x.re * k.m.x + a.y.re * k.m.y + a.z.re * k.m.z, a.x.im * k.m.x + a.y.im * k.m.y + a.z.im * k.m.z⟩
  let at1 : ℂ := ⟨a.x.re * k.n.x + a.y.re * k.n.y + a.z.re * k.n.z, a.x.im * k.n.x + a.y.im * k.n.y + a.z.im * k.n.z⟩
  let scale := -scale / fixDenom k.kmag
  (⟨-scale * at1.re, -scale * at1.im⟩, ⟨scale * at0.re, scale * at0.im⟩)

/-- `maxwell_simple_precondition`, maxwell_pre.c:38-73 (`PRECOND_SUBTR_EIGS` is 0): `X.localN = nG`, `X.c = c`, `X.p = p`;
each element is updated in place from its own old value. -/
noncomputable def simplePrecondition (nG c p : ℕ) (kpGn2 : ℕ → ℝ) (epsInvMean : ℝ) (X : ℕ → ℂ) : ℕ → ℂ :=
  (loop3 nG c p).foldl (fun mem t =>
    let index := (t.1 * c + t.2.1) * p + t.2.2
    let scale := 1 / fixDenom (kpGn2 t.1 * epsInvMean)
    Function.update mem index ⟨scale * (mem index).re, scale * (mem index).im⟩) X

/-! ### Planewaves -/

/-- `SCALAR_NORMSQR`. -/
def normSqr (a : ℂ) : ℝ := a.re * a.re + a.im * a.im

/-- maxwell.c:369-371: index of the G vector in one direction. -/
def gIndex (n : ℕ) (g : ℤ) : ℤ := if g > 0 then (n : ℤ) - g else -g

open Classical in
/-- `maxwell_set_planewave`, maxwell.c:362-416 (serial, complex build).  `none` is a failing `CHECK`.  `kpg` is the array
`k_plus_G`. -/
noncomputable def setPlanewave (nx ny nz : ℕ) (kpg : ℕ → KData) (p : ℕ) (H : ℕ → ℂ) (band : ℕ) (g : V3 ℤ) (s pa : ℂ)
    (axis : V3 ℝ) : Option (ℕ → ℂ) :=
  let x := gIndex nx g.x
  let y := gIndex ny g.y
  let z := gIndex nz g.z
  if 0 ≤ x ∧ 0 ≤ y ∧ 0 ≤ z ∧ x < nx ∧ y < ny ∧ z < nz then
    let H0 := writes ((loop2 (nx * ny * nz) 2).map fun t => ((t.1 * 2 + t.2) * p + (band - 1), (0 : ℂ))) H
    let i := (x.toNat * ny + y.toNat) * nz + z.toNat
    let k := kpg i
    let kv := V3.cross k.m k.n
    let pv := V3.cross kv axis
    let len := Real.sqrt (pv.x * pv.x + pv.y * pv.y + pv.z * pv.z)
    if len > 0 then
      let pv : V3 ℝ := ⟨pv.x / len, pv.y / len, pv.z / len⟩
      let sv := V3.cross kv pv
      let Hx : ℂ := ⟨s.re * sv.x + pa.re * pv.x, s.im * sv.x + pa.im * pv.x⟩
      let Hy : ℂ := ⟨s.re * sv.y + pa.re * pv.y, s.im * sv.y + pa.im * pv.y⟩
      let Hz : ℂ := ⟨s.re * sv.z + pa.re * pv.z, s.im * sv.z + pa.im * pv.z⟩
      some (writes
        [((i * 2 + 0) * p + (band - 1), ⟨Hx.re * k.m.x + Hy.re * k.m.y + Hz.re * k.m.z, Hx.im * k.m.x + Hy.im * k.m.y + Hz.im * k.m.z⟩),
         ((i * 2 + 1) * p + (band - 1), ⟨Hx.re * k.n.x + Hy.re * k.n.y + Hz.re * k.n.z, Hx.im * k.n.x + Hy.im * k.n.y + Hz.im * k.n.z⟩)] H0)
    else none
  else none

open Classical in
/-- The search loop of `maxwell_dominant_planewave`, maxwell.c:321-327: state is `(max_amp, max_i)`. -/
noncomputable def dominantLoop (amp : ℕ → ℝ) : (n : ℕ) → ℝ × ℕ
  | 0 => (0, 0)
  | n + 1 =>
    let st := dominantLoop amp n
    if amp n > st.1 then (amp n, n) else st

/-- `maxwell_dominant_planewave`, maxwell.c:312-338 (serial).  `none` is a failing `CHECK`. -/
noncomputable def dominantPlanewave (nG : ℕ) (kpg : ℕ → KData) (p : ℕ) (H : ℕ → ℂ) (band : ℤ) : Option (V3 ℝ) :=
  if 1 ≤ band ∧ band ≤ p then
    let b := band.toNat
    let amp := fun i => normSqr (H ((i * 2 + 0) * p + (b - 1))) + normSqr (H ((i * 2 + 1) * p + (b - 1)))
    let k := kpg (dominantLoop amp nG).2
    let kv := V3.cross k.m k.n
    some ⟨kv.x * k.kmag, kv.y * k.kmag, kv.z * k.kmag⟩
  else none

/-! ### Field divergence -/

/-- The vector `(kx, ky, kz)` computed in `compute_field_divergence`, fields.c:393-395 (note the last component). -/
def divK (k : KData) : V3 ℝ :=
  ⟨k.kmag * (k.m.y * k.n.z - k.m.z * k.n.y),
   k.kmag * (k.m.z * k.n.x - k.m.x * k.n.z),
   k.kmag * (k.m.x * k.n.y - k.m.y * k.n.z)⟩

/-- The in-place loop of `compute_field_divergence`, fields.c:388-403: `field2[ij]` is overwritten while the triples
`field2[3*ij..3*ij+2]` are read. -/
noncomputable def divLoop (kpg : ℕ → KData) : (n : ℕ) → (ℕ → ℂ) → (ℕ → ℂ)
  | 0, f => f
  | n + 1, f =>
    let f := divLoop kpg n f
    let k := divK (kpg n)
    Function.update f n
      ⟨(f (3 * n + 0)).re * k.x + (f (3 * n + 1)).re * k.y + (f (3 * n + 2)).re * k.z,
       (f (3 * n + 0)).im * k.x + (f (3 * n + 1)).im * k.y + (f (3 * n + 2)).im * k.z⟩

/-- `compute_field_divergence`, fields.c:372-419 (complex serial build, where `last_dim_size = last_dim` and
`fft_output_size = N`): `fwd`/`bwd` are the scalar transforms `maxwell_compute_fft(-1/+1)` on one component; the field is
`3`-interleaved.  The result is the scalar field `curfield[i]`, `i < N`. -/
noncomputable def fieldDivergence (N : ℕ) (fwd bwd : (ℕ → ℂ) → (ℕ → ℂ)) (kpg : ℕ → KData) (field : ℕ → ℂ) : ℕ → ℂ :=
  let field2 : ℕ → ℂ := fun a => fwd (fun j => field (3 * j + a % 3)) (a / 3)
  let field2 := divLoop kpg N field2
  let cur := bwd field2
  let scale := 2 * Real.pi / N
  fun i => ⟨-(cur i).im * scale, (cur i).re * scale⟩

end Mpb.Maxwell

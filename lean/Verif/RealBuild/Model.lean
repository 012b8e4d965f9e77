import Verif.Invariance.Model
import Verif.Field.EnergyModel

/-!
# Model of the operators in the build for structures with inversion symmetry (`mpbi`, real scalars)

`scalar` is `real` (`SCALAR_COMPLEX` not defined), serial, FFTW 3.  Band vectors are arrays of `N*2*p` reals.  The FFT buffer is a memory
of reals: as `scalar *` it is indexed by reals, as `scalar_complex *` its element `j` is the pair of reals `2j`, `2j+1` (`Field.cplx`).
Transforms are modelled in place (`fft_data2 == fft_data`, the default of `mpbi`); out of place only the unread padding differs.
-/

namespace Mpb.RealBuild
open Mpb.Maxwell Mpb.Invariance Mpb.Field

/-! ## Sizes -/

/-- `last_dim = n[rank - 1]`, maxwell.c:34, 65. -/
def lastDim (nx ny nz : ℕ) : ℕ := if nz = 1 then (if ny = 1 then nx else ny) else nz

/-- `other_dims = *local_N / last_dim`, maxwell.c:74. -/
def otherDims (nx ny nz : ℕ) : ℕ := nx * ny * nz / lastDim nx ny nz

/-- `last_dim_size = 2 * (last_dim / 2 + 1)`, maxwell.c:83. -/
def lastDimSize (nx ny nz : ℕ) : ℕ := 2 * (lastDim nx ny nz / 2 + 1)

/-- `fft_output_size = (other_dims * last_dim_size)/2`, maxwell.c:84. -/
def fftOutputSize (nx ny nz : ℕ) : ℕ := otherDims nx ny nz * lastDimSize nx ny nz / 2

/-! ## Conversions with real amplitudes (`SCALAR_IM` is 0) -/

/-- `assign_t2c`, maxwell_op.c:30-44. -/
def t2cR (k : KData) (v0 v1 : ℝ) : V3 ℝ := ⟨v0 * k.m.x + v1 * k.n.x, v0 * k.m.y + v1 * k.n.y, v0 * k.m.z + v1 * k.n.z⟩

/-- `project_c2t`, maxwell_op.c:47-56. -/
def c2tR (k : KData) (a : V3 ℝ) (scale : ℝ) : ℝ × ℝ :=
  ((a.x * k.m.x + a.y * k.m.y + a.z * k.m.z) * scale, (a.x * k.n.x + a.y * k.n.y + a.z * k.n.z) * scale)

/-- `assign_cross_t2c`, maxwell_op.c:64-89. -/
def crossT2cR (k : KData) (v0 v1 : ℝ) : V3 ℝ :=
  ⟨(v0 * k.n.x - v1 * k.m.x) * k.kmag, (v0 * k.n.y - v1 * k.m.y) * k.kmag, (v0 * k.n.z - v1 * k.m.z) * k.kmag⟩

/-- `assign_cross_c2t`, maxwell_op.c:97-130. -/
def crossC2tR (k : KData) (a : V3 ℝ) (scale : ℝ) : ℝ × ℝ :=
  let at0 := a.x * k.m.x + a.y * k.m.y + a.z * k.m.z
  let at1 := a.x * k.n.x + a.y * k.n.y + a.z * k.n.z
  let scale := scale * k.kmag
  (-scale * at1, scale * at0)

/-! ## Loops -/

/-- The loop filling `fft_data_in`, maxwell_op.c:412-426 and 523-537: the rows of `last_dim` numbers are `last_dim_size` apart. -/
def fillFftR (conv : KData → ℝ → ℝ → V3 ℝ) (od ld lds : ℕ) (kpg : ℕ → KData) (p : ℕ) (Hin buf : ℕ → ℝ) (start num : ℕ) : ℕ → ℝ :=
  (loop3 od ld num).foldl (fun mem t =>
    let ij := t.1 * ld + t.2.1
    let ij2 := t.1 * lds + t.2.1
    let src := ij * 2 * p + t.2.2 + start
    let v := conv (kpg ij) (Hin src) (Hin (src + p))
    let dst := 3 * (ij2 * num + t.2.2)
    writes [(dst + 0, v.x), (dst + 1, v.y), (dst + 2, v.z)] mem) buf

/-- The loop storing band data, maxwell_op.c:490-502 and 569-581. -/
def storeBandsR (conv : KData → V3 ℝ → ℝ → ℝ × ℝ) (od ld lds : ℕ) (kpg : ℕ → KData) (p : ℕ) (F Hout : ℕ → ℝ) (start num : ℕ)
    (scale : ℝ) : ℕ → ℝ :=
  (loop3 od ld num).foldl (fun mem t =>
    let ij := t.1 * ld + t.2.1
    let ij2 := t.1 * lds + t.2.1
    let src := 3 * (ij2 * num + t.2.2)
    let v := conv (kpg ij) ⟨F (src + 0), F (src + 1), F (src + 2)⟩ scale
    let dst := ij * 2 * p + t.2.2 + start
    writes [(dst, v.1), (dst + p, v.2)] mem) Hout

/-- `maxwell_compute_e_from_d_`, maxwell_op.c:437-453, on the `fft_output_size` complex vectors of the buffer. -/
noncomputable def eFromDR (size num : ℕ) (epsInv : ℕ → HMat) (dfield : ℕ → ℝ) : ℕ → ℝ :=
  (loop2 size num).foldl (fun mem t =>
    let ib := 3 * (t.1 * num + t.2)
    let v := (epsInv t.1).mulVec ⟨cplx mem (ib + 0), cplx mem (ib + 1), cplx mem (ib + 2)⟩
    writes [(2 * (ib + 0), v.x.re), (2 * (ib + 0) + 1, v.x.im), (2 * (ib + 1), v.y.re), (2 * (ib + 1) + 1, v.y.im),
      (2 * (ib + 2), v.z.re), (2 * (ib + 2) + 1, v.z.im)] mem) dfield

/-! ## Transforms -/

/-- FFTW's complex-to-real transform of one sequence (external code): stored half ↦ real output.  And what it leaves in the padding of
the rows, which is not specified. -/
structure Fftw where
  c2r : (ℕ → ℂ) → ℕ → ℝ
  junk : (ℕ → ℝ) → ℕ → ℝ

/-- `maxwell_compute_fft(+1, ...)` with `stride = howmany`, `dist = 1`: `execute_dft_r2c(iplan)`, maxwell_op.c:214-244, 263-264.  Input rows
`last_dim_size` apart (`nr`), the first `last_dim / 2 + 1` numbers of each row of the (forward) transform are stored.  The transform itself
is FFTW's definition. -/
noncomputable def fftR2C (nx ny nz howmany : ℕ) (mem : ℕ → ℝ) : ℕ → ℝ := fun a =>
  if a < 2 * (fftOutputSize nx ny nz * howmany) then
    let ld := lastDim nx ny nz
    let lds := lastDimSize nx ny nz
    let q := a / 2 / howmany
    let z := ∑ G ∈ Finset.range (nx * ny * nz), dft (-1) nx ny nz (q / (ld / 2 + 1) * ld + q % (ld / 2 + 1)) G *
      (mem ((G / ld * lds + G % ld) * howmany + a / 2 % howmany) : ℂ)
    if a % 2 = 0 then z.re else z.im
  else mem a

/-- `maxwell_compute_fft(-1, ...)`: `execute_dft_c2r(plan)`, maxwell_op.c:214-244, 266. -/
noncomputable def fftC2R (w : Fftw) (nx ny nz howmany : ℕ) (mem : ℕ → ℝ) : ℕ → ℝ := fun a =>
  let ld := lastDim nx ny nz
  let lds := lastDimSize nx ny nz
  let ij2 := a / howmany
  if a < otherDims nx ny nz * lds * howmany ∧ ij2 % lds < ld then
    w.c2r (fun q => cplx mem (q * howmany + a % howmany)) (ij2 / lds * ld + ij2 % lds)
  else w.junk mem a

/-! ## The operators -/

/-- The part of `maxwell_data` used by the operators.  `epsInv` and `muInv` have `fft_output_size` entries. -/
structure RData where
  nx : ℕ
  ny : ℕ
  nz : ℕ
  /-- `num_fft_bands` -/
  nfb : ℕ
  /-- `k_plus_G` -/
  kpg : ℕ → KData
  epsInv : ℕ → HMat
  muInv : Option (ℕ → HMat)

/-- `d->N`, all planewaves. -/
def RData.N (d : RData) : ℕ := d.nx * d.ny * d.nz

/-- `maxwell_compute_d_from_H`, maxwell_op.c:398-431 (`conv = crossT2cR`), and `maxwell_compute_h_from_H`, maxwell_op.c:508-542
(`conv = t2cR`). -/
noncomputable def fromHR (conv : KData → ℝ → ℝ → V3 ℝ) (d : RData) (p : ℕ) (Hin buf : ℕ → ℝ) (start num : ℕ) : ℕ → ℝ :=
  fftR2C d.nx d.ny d.nz (num * 3) (fillFftR conv (otherDims d.nx d.ny d.nz) (lastDim d.nx d.ny d.nz) (lastDimSize d.nx d.ny d.nz) d.kpg p
    Hin buf start num)

/-- `maxwell_compute_H_from_e`, maxwell_op.c:469-503 (`conv = crossC2tR`), and the end of `maxwell_compute_H_from_B`, maxwell_op.c:565-581
(`conv = c2tR`). -/
noncomputable def toHR (conv : KData → V3 ℝ → ℝ → ℝ × ℝ) (w : Fftw) (d : RData) (p : ℕ) (Hout field : ℕ → ℝ) (start num : ℕ)
    (scale : ℝ) : ℕ → ℝ :=
  storeBandsR conv (otherDims d.nx d.ny d.nz) (lastDim d.nx d.ny d.nz) (lastDimSize d.nx d.ny d.nz) d.kpg p
    (fftC2R w d.nx d.ny d.nz (num * 3) field) Hout start num scale

/-- `maxwell_compute_H_from_B`, maxwell_op.c:544-582, for `mu_inv != NULL`. -/
noncomputable def HFromBmuR (w : Fftw) (d : RData) (mu : ℕ → HMat) (p : ℕ) (Bin Hout buf : ℕ → ℝ) (start num : ℕ) : ℕ → ℝ :=
  toHR c2tR w d p Hout (eFromDR (fftOutputSize d.nx d.ny d.nz) num mu (fromHR t2cR d p Bin buf start num)) start num (1 / (d.N : ℝ))

/-- `evectmatrix_copy_slice` between equal columns (evectmatrix.c). -/
def copySliceR (n p : ℕ) (Xin Xout : ℕ → ℝ) (start num : ℕ) : ℕ → ℝ :=
  writes ((loop2 n num).map fun t => (t.1 * p + t.2 + start, Xin (t.1 * p + t.2 + start))) Xout

/-- One pass of the band loop of `maxwell_operator`, maxwell_op.c:1199-1221. -/
noncomputable def operatorStepR (w : Fftw) (d : RData) (p : ℕ) (Xin buf Xout : ℕ → ℝ) (ch : ℕ × ℕ) : ℕ → ℝ :=
  let scale := -1 / (d.N : ℝ)
  match d.muInv with
  | none =>
    let e := eFromDR (fftOutputSize d.nx d.ny d.nz) ch.2 d.epsInv (fromHR crossT2cR d p Xin buf ch.1 ch.2)
    toHR crossC2tR w d p Xout e ch.1 ch.2 scale
  | some mu =>
    let X1 := HFromBmuR w d mu p Xin Xout buf ch.1 ch.2
    let e := eFromDR (fftOutputSize d.nx d.ny d.nz) ch.2 d.epsInv (fromHR crossT2cR d p X1 buf ch.1 ch.2)
    let X2 := toHR crossC2tR w d p X1 e ch.1 ch.2 scale
    HFromBmuR w d mu p X2 X2 buf ch.1 ch.2

/-- `maxwell_operator`, maxwell_op.c:1182-1222.  `none`: the loop does not end (`num_fft_bands = 0`). -/
noncomputable def maxwellOperatorR (w : Fftw) (d : RData) (p : ℕ) (bufs : ℕ → ℕ → ℝ) (Xin Xout : ℕ → ℝ) : Option (ℕ → ℝ) :=
  if d.nfb = 0 ∧ 0 < p then none
  else some ((bandChunks d.nfb p 0).foldl (fun X ch => operatorStepR w d p Xin (bufs ch.1) X ch) Xout)

/-- `maxwell_muinv_operator`, maxwell_op.c:1224-1247. -/
noncomputable def muinvOperatorR (w : Fftw) (d : RData) (p : ℕ) (bufs : ℕ → ℕ → ℝ) (Xin Xout : ℕ → ℝ) : Option (ℕ → ℝ) :=
  if d.nfb = 0 ∧ 0 < p then none
  else some ((bandChunks d.nfb p 0).foldl (fun X ch =>
    match d.muInv with
    | none => copySliceR (d.N * 2) p Xin X ch.1 ch.2
    | some mu => HFromBmuR w d mu p Xin X (bufs ch.1) ch.1 ch.2) Xout)

end Mpb.RealBuild

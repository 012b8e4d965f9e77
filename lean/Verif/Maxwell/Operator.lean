import Verif.Maxwell.Model
import Verif.Core.Sym

/-!
# Model of the Maxwell operator (maxwell_op.c)

Complex-scalar build (`last_dim_size = last_dim`, `fft_output_size = N = other_dims*last_dim`).  Band vectors are stored in
an array `X` of `N*2*p` scalars, element `(ij*2 + c)*p + b` (planewave, polarisation, band).  The FFT is a parameter: a
pair of `N×N` matrices applied by `maxwell_compute_fft` to each of `howmany` interleaved sequences.
-/

namespace Mpb.Maxwell

/-- `maxwell_compute_fft(dir, d, in, out, howmany, stride = howmany, dist = 1)`, maxwell_op.c:168-340: for each of the
`howmany` interleaved sequences the output is the matrix `W` applied to the input; elements of `out` beyond the transform are
kept.  `W` is FFTW's transform matrix for that direction (external code). -/
noncomputable def computeFft (W : ℕ → ℕ → ℂ) (N howmany : ℕ) (inp out : ℕ → ℂ) : ℕ → ℂ := fun a =>
  if a < N * howmany then ∑ j ∈ Finset.range N, W (a / howmany) j * inp (j * howmany + a % howmany) else out a

/-- The three assignments `a[0], a[1], a[2]` of an `assign_*_t2c` call at base address `base`. -/
def write3 (base : ℕ) (v : V3 ℂ) (mem : ℕ → ℂ) : ℕ → ℂ :=
  writes [(base + 0, v.x), (base + 1, v.y), (base + 2, v.z)] mem

/-- The two assignments `v[0], v[vstride]` of an `assign_*_c2t` call at base address `base`. -/
def write2 (base stride : ℕ) (v : ℂ × ℂ) (mem : ℕ → ℂ) : ℕ → ℂ :=
  writes [(base, v.1), (base + stride, v.2)] mem

/-- The loop `for i, j, b` filling `fft_data_in` from band data, shared by `maxwell_compute_d_from_H` (maxwell_op.c:412-426),
`maxwell_compute_h_from_H` (maxwell_op.c:523-537) and `maxwell_ucross_op` (maxwell_op.c:1311-1324); `conv` is the `assign_*_t2c`
function called. -/
noncomputable def fillFft (conv : KData → ℂ → ℂ → V3 ℂ) (od ld : ℕ) (kpg : ℕ → KData) (p : ℕ) (Hin buf : ℕ → ℂ)
    (curBandStart curNumBands : ℕ) : ℕ → ℂ :=
  (loop3 od ld curNumBands).foldl (fun mem t =>
    let ij := t.1 * ld + t.2.1
    let ij2 := t.1 * ld + t.2.1
    let src := ij * 2 * p + t.2.2 + curBandStart
    write3 (3 * (ij2 * curNumBands + t.2.2)) (conv (kpg ij) (Hin src) (Hin (src + p))) mem) buf

/-- The loop `for i, j, b` storing band data from `fft_data_out`, shared by `maxwell_compute_H_from_e` (maxwell_op.c:490-502)
and `maxwell_compute_H_from_B` (maxwell_op.c:569-581); `conv` is `assign_cross_c2t` or `project_c2t`. -/
noncomputable def storeBands (conv : KData → V3 ℂ → ℝ → ℂ × ℂ) (od ld : ℕ) (kpg : ℕ → KData) (p : ℕ) (F Hout : ℕ → ℂ)
    (curBandStart curNumBands : ℕ) (scale : ℝ) : ℕ → ℂ :=
  (loop3 od ld curNumBands).foldl (fun mem t =>
    let ij := t.1 * ld + t.2.1
    let ij2 := t.1 * ld + t.2.1
    let src := 3 * (ij2 * curNumBands + t.2.2)
    write2 (ij * 2 * p + t.2.2 + curBandStart) p (conv (kpg ij) ⟨F (src + 0), F (src + 1), F (src + 2)⟩ scale) mem) Hout

/-- `maxwell_compute_e_from_d_`, maxwell_op.c:437-453: in-place multiplication by the tensor of each grid point. -/
noncomputable def eFromD (fftOutputSize : ℕ) (curNumBands : ℕ) (epsInv : ℕ → HMat) (dfield : ℕ → ℂ) : ℕ → ℂ :=
  (loop2 fftOutputSize curNumBands).foldl (fun mem t =>
    let ib := 3 * (t.1 * curNumBands + t.2)
    write3 ib ((epsInv t.1).mulVec ⟨mem (ib + 0), mem (ib + 1), mem (ib + 2)⟩) mem) dfield

/-- The part of `maxwell_data` used by the operator (serial). -/
structure OpData where
  /-- `other_dims` -/
  od : ℕ
  /-- `last_dim` (= `last_dim_size` in the complex build) -/
  ld : ℕ
  /-- `num_fft_bands` -/
  nfb : ℕ
  /-- `k_plus_G` -/
  kpg : ℕ → KData
  /-- `eps_inv` -/
  epsInv : ℕ → HMat
  /-- `mu_inv`, `none` for `NULL` -/
  muInv : Option (ℕ → HMat)
  /-- the matrix of `maxwell_compute_fft(+1, ...)` -/
  Wf : ℕ → ℕ → ℂ
  /-- the matrix of `maxwell_compute_fft(-1, ...)` -/
  Wb : ℕ → ℕ → ℂ

/-- Number of grid points / planewaves. -/
def OpData.N (d : OpData) : ℕ := d.od * d.ld

/-- `maxwell_compute_d_from_H`, maxwell_op.c:398-431.  The result is the content of `dfield`.  `buf` is the old content of
the FFT buffer; in place and out of place transforms give the same result. -/
noncomputable def dFromH (d : OpData) (p : ℕ) (Hin buf : ℕ → ℂ) (start num : ℕ) : ℕ → ℂ :=
  computeFft d.Wf d.N (num * 3) (fillFft crossT2c d.od d.ld d.kpg p Hin buf start num) buf

/-- `maxwell_compute_H_from_e`, maxwell_op.c:469-503. -/
noncomputable def HFromE (d : OpData) (p : ℕ) (Hout efield : ℕ → ℂ) (start num : ℕ) (scale : ℝ) : ℕ → ℂ :=
  storeBands crossC2t d.od d.ld d.kpg p (computeFft d.Wb d.N (num * 3) efield efield) Hout start num scale

/-- `maxwell_compute_h_from_H`, maxwell_op.c:508-542. -/
noncomputable def hFromH (d : OpData) (p : ℕ) (Hin buf : ℕ → ℂ) (start num : ℕ) : ℕ → ℂ :=
  computeFft d.Wf d.N (num * 3) (fillFft t2c d.od d.ld d.kpg p Hin buf start num) buf

/-- `maxwell_compute_H_from_B`, maxwell_op.c:544-582, for `mu_inv != NULL` and equal band starts. -/
noncomputable def HFromBmu (d : OpData) (mu : ℕ → HMat) (p : ℕ) (Bin Hout buf : ℕ → ℂ) (start num : ℕ) : ℕ → ℂ :=
  let h := eFromD d.N num mu (hFromH d p Bin buf start num)
  storeBands c2t d.od d.ld d.kpg p (computeFft d.Wb d.N (num * 3) h h) Hout start num (1 / (d.N : ℝ))

/-- `evectmatrix_copy_slice` of `num` bands from column `start` to column `start` (evectmatrix.c), as used by
`maxwell_compute_H_from_B` when `mu_inv == NULL`. -/
noncomputable def copySlice (n p : ℕ) (Xin Xout : ℕ → ℂ) (start num : ℕ) : ℕ → ℂ :=
  writes ((loop2 n num).map fun t => (t.1 * p + t.2 + start, Xin (t.1 * p + t.2 + start))) Xout

/-- The list of `(cur_band_start, cur_num_bands)` of the loop `for (cur_band_start = 0; cur_band_start < p; cur_band_start +=
num_fft_bands)`, maxwell_op.c:1199-1201.  With `num_fft_bands = 0` the C loop would not terminate; see `maxwellOperator`. -/
def bandChunks (nfb p cur : ℕ) : List (ℕ × ℕ) :=
  if cur < p ∧ 0 < nfb then (cur, min nfb (p - cur)) :: bandChunks nfb p (cur + nfb) else []
termination_by p - cur

/-- One pass of the band loop of `maxwell_operator`, maxwell_op.c:1199-1221.  `buf` is the old content of `fft_data`. -/
noncomputable def operatorStep (d : OpData) (p : ℕ) (Xin buf Xout : ℕ → ℂ) (ch : ℕ × ℕ) : ℕ → ℂ :=
  let scale := -1 / (d.N : ℝ)
  match d.muInv with
  | none =>
    let e := eFromD d.N ch.2 d.epsInv (dFromH d p Xin buf ch.1 ch.2)
    HFromE d p Xout e ch.1 ch.2 scale
  | some mu =>
    let X1 := HFromBmu d mu p Xin Xout buf ch.1 ch.2
    let e := eFromD d.N ch.2 d.epsInv (dFromH d p X1 buf ch.1 ch.2)
    let X2 := HFromE d p X1 e ch.1 ch.2 scale
    HFromBmu d mu p X2 X2 buf ch.1 ch.2

/-- `maxwell_operator`, maxwell_op.c:1182-1222, with `Xin` and `Xout` distinct arrays of `p` bands.  `none`: the loop does not
terminate (`num_fft_bands = 0`).  `bufs` gives the (arbitrary) old content of the FFT buffer at each pass. -/
noncomputable def maxwellOperator (d : OpData) (p : ℕ) (bufs : ℕ → ℕ → ℂ) (Xin Xout : ℕ → ℂ) : Option (ℕ → ℂ) :=
  if d.nfb = 0 ∧ 0 < p then none
  else some ((bandChunks d.nfb p 0).foldl (fun X ch => operatorStep d p Xin (bufs ch.1) X ch) Xout)

/-- `maxwell_muinv_operator`, maxwell_op.c:1224-1247. -/
noncomputable def muinvOperator (d : OpData) (p : ℕ) (bufs : ℕ → ℕ → ℂ) (Xin Xout : ℕ → ℂ) : Option (ℕ → ℂ) :=
  if d.nfb = 0 ∧ 0 < p then none
  else some ((bandChunks d.nfb p 0).foldl (fun X ch =>
    match d.muInv with
    | none => copySlice (d.N * 2) p Xin X ch.1 ch.2
    | some mu => HFromBmu d mu p Xin X (bufs ch.1) ch.1 ch.2) Xout)

/-- `maxwell_ucross_op`, maxwell_op.c:1287-1334. -/
noncomputable def ucrossOperator (d : OpData) (u : V3 ℝ) (p : ℕ) (bufs : ℕ → ℕ → ℂ) (Xin Xout : ℕ → ℂ) : Option (ℕ → ℂ) :=
  if d.nfb = 0 ∧ 0 < p then none
  else some ((bandChunks d.nfb p 0).foldl (fun X ch =>
    let f := computeFft d.Wf d.N (ch.2 * 3) (fillFft (ucrossT2c u) d.od d.ld d.kpg p Xin (bufs ch.1) ch.1 ch.2) (bufs ch.1)
    HFromE d p X (eFromD d.N ch.2 d.epsInv f) ch.1 ch.2 (-1 / (d.N : ℝ))) Xout)

end Mpb.Maxwell

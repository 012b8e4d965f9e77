import Verif.Parity.Model
import Verif.Maxwell.Operator

/-!
# Model of a run on several processes (MPI build, complex scalars)

The plane waves of a grid `nx × ny × nz` are distributed by rows of the first dimension: process `r` holds `local_nx` rows from
`local_x_start` on (maxwell.c:121-147).  In real space the array is transposed and distributed by rows of the second dimension:
`local_ny` rows from `local_y_start` on, in the order y, x, z.  Both distributions come from FFTW and are parameters.  All processes run
the same code; `X r` is the array of process `r`.  The serial models of the loops are reused with the numbers of one process.
-/

namespace Mpb.Dist

open Mpb.Maxwell Mpb.Parity

variable {P : ℕ}

/-- Which rows each process holds: `local_x_start` and `local_nx`, or `local_y_start` and `local_ny`, maxwell.c:134-145. -/
structure Layout (P : ℕ) where
  start : Fin P → ℕ
  size : Fin P → ℕ

/-- `mpi_allreduce(…, MPI_SUM, mpb_comm)`, mpiglue.h:47-56: every process gets the sum of what all processes contribute. -/
def allreduce {α : Type*} [AddCommMonoid α] (f : Fin P → α) : α := ∑ r, f r

/-! ## Wave vectors -/

/-- The array `k_plus_G` of one process, `update_maxwell_data_k`, maxwell.c:442-511. -/
noncomputable def updateKLocal (nx ny nz : ℕ) (G1 G2 G3 k : V3 ℝ) (xStart lnx : ℕ) : List KData :=
  (loop3 lnx ny nz).map fun i => kData (kplusG G1 G2 G3 k (harm nx (xStart + i.1)) (harm ny i.2.1) (harm nz i.2.2))

/-! ## Products of eigenvector blocks -/

/-- `evectmatrix_XtY`, evectmatrix.c:172-205, with the scratch matrix summed over the processes: entry `(a, b)` of `adjoint(X) * Y`.
`n r` is the number of rows of process `r` (`X.n = localN * c`). -/
noncomputable def xty (n : Fin P → ℕ) (p : ℕ) (X Y : Fin P → ℕ → ℂ) (a b : ℕ) : ℂ :=
  allreduce fun r => ∑ i ∈ Finset.range (n r), starRingEnd ℂ (X r (i * p + a)) * Y r (i * p + b)

/-- `evectmatrix_XtY_diag_real`, evectmatrix.c:245-253. -/
noncomputable def xtyDiagReal (n : Fin P → ℕ) (p : ℕ) (X Y : Fin P → ℕ → ℂ) (a : ℕ) : ℝ :=
  allreduce fun r => ∑ i ∈ Finset.range (n r), reDot (X r (i * p + a)) (Y r (i * p + a))

/-- `evectmatrix_traceXtY`, evectmatrix.c:264-279. -/
noncomputable def traceXtY (n : Fin P → ℕ) (p : ℕ) (X Y : Fin P → ℕ → ℂ) : ℂ :=
  allreduce fun r => ∑ i ∈ Finset.range (n r * p), starRingEnd ℂ (X r i) * Y r i

/-- `deflation_constraint`, mpb.c:556-580: `S = adjoint(BY) X` summed over the processes, then `X := X - Y S` on each.  `q` is the
number of solved bands, stored in an array of `py` columns; `p` the number of bands of the block. -/
noncomputable def deflate (n : Fin P → ℕ) (q py p : ℕ) (Y BY X : Fin P → ℕ → ℂ) : Fin P → ℕ → ℂ :=
  let S := fun a b => allreduce fun r => ∑ i ∈ Finset.range (n r), starRingEnd ℂ (BY r (i * py + a)) * X r (i * p + b)
  fun r a => if a < n r * p then X r a - ∑ c ∈ Finset.range q, Y r (a / p * py + c) * S c (a % p) else X r a

/-- `evectmatrix_aXpbYS_sub`, evectmatrix.c:106-122: `X := a X + b Y S` on each process, with the same small matrix `S`. -/
noncomputable def combine (n : Fin P → ℕ) (p : ℕ) (a b : ℝ) (S : ℕ → ℕ → ℂ) (Y X : Fin P → ℕ → ℂ) : Fin P → ℕ → ℂ := fun r i =>
  if i < n r * p then a * X r i + b * ∑ c ∈ Finset.range p, Y r (i / p * p + c) * S c (i % p) else X r i

/-! ## Parities -/

/-- The accumulators of `maxwell_zparity` on one process, maxwell_constraints.c:140-177. -/
noncomputable def zAcc (g : Grid) (p : ℕ) (X : ℕ → ℂ) (b : ℕ) : ℝ × ℝ :=
  let nxy := if g.nz > 1 then g.otherDims else g.otherDims * g.lastDim
  let nz := if g.nz > 1 then g.lastDim else 1
  (loop2 nxy (nz / 2 + 1)).foldl (fun (st : ℝ × ℝ) t =>
    let ij := t.1 * nz + t.2
    let ij2 := t.1 * nz + mir nz t.2
    let u := X ((ij * 2) * p + b)
    let v := X ((ij * 2 + 1) * p + b)
    let u2 := X ((ij2 * 2) * p + b)
    let v2 := X ((ij2 * 2 + 1) * p + b)
    let w : ℝ := if ij = ij2 then 1 else 2
    (st.1 + w * (u.re * u2.re + u.im * u2.im - v.re * v2.re - v.im * v2.im),
     st.2 + w * (u.re * u.re + u.im * u.im + v.re * v.re + v.im * v.im))) (0, 0)

/-- `maxwell_zparity`, maxwell_constraints.c:132-190: the value every process returns for band `b`. -/
noncomputable def zparity (lx : Layout P) (ny nz p : ℕ) (X : Fin P → ℕ → ℂ) (b : ℕ) : ℝ :=
  (allreduce fun r => (zAcc ⟨lx.size r, ny, nz⟩ p (X r) b).1) / allreduce fun r => (zAcc ⟨lx.size r, ny, nz⟩ p (X r) b).2

/-- The accumulators of `maxwell_yparity` on one process, maxwell_constraints.c:262-299. -/
noncomputable def yAcc (g : Grid) (p : ℕ) (X : ℕ → ℂ) (b : ℕ) : ℝ × ℝ :=
  (loop3 g.nx (g.ny / 2 + 1) g.nz).foldl (fun (st : ℝ × ℝ) t =>
    let ijk := (t.1 * g.ny + t.2.1) * g.nz + t.2.2
    let ijk2 := (t.1 * g.ny + mir g.ny t.2.1) * g.nz + t.2.2
    let u := X ((ijk * 2) * p + b)
    let v := X ((ijk * 2 + 1) * p + b)
    let u2 := X ((ijk2 * 2) * p + b)
    let v2 := X ((ijk2 * 2 + 1) * p + b)
    let w : ℝ := if ijk = ijk2 then 1 else 2
    (st.1 + w * (v.re * v2.re + v.im * v2.im - u.re * u2.re - u.im * u2.im),
     st.2 + w * (v.re * v.re + v.im * v.im + u.re * u.re + u.im * u.im))) (0, 0)

/-- `maxwell_yparity`, maxwell_constraints.c:254-312. -/
noncomputable def yparity (lx : Layout P) (ny nz p : ℕ) (X : Fin P → ℕ → ℂ) (b : ℕ) : ℝ :=
  (allreduce fun r => (yAcc ⟨lx.size r, ny, nz⟩ p (X r) b).1) / allreduce fun r => (yAcc ⟨lx.size r, ny, nz⟩ p (X r) b).2

/-! ## Plane waves -/

open Classical in
/-- `maxwell_set_planewave` on one process, maxwell.c:362-416.  `none` is a failing `CHECK`, which ends the whole run. -/
noncomputable def setPlanewaveLocal (nx ny nz xStart lnx : ℕ) (kpg : ℕ → KData) (p : ℕ) (H : ℕ → ℂ) (band : ℕ) (g : V3 ℤ) (s pa : ℂ)
    (axis : V3 ℝ) : Option (ℕ → ℂ) :=
  let x := gIndex nx g.x
  let y := gIndex ny g.y
  let z := gIndex nz g.z
  if 0 ≤ x ∧ 0 ≤ y ∧ 0 ≤ z ∧ x < nx ∧ y < ny ∧ z < nz then
    let H0 := writes ((loop2 (lnx * ny * nz) 2).map fun t => ((t.1 * 2 + t.2) * p + (band - 1), (0 : ℂ))) H
    if x ≥ xStart ∧ x < xStart + lnx then
      let i := ((x.toNat - xStart) * ny + y.toNat) * nz + z.toNat
      let k := kpg i
      let kv := V3.cross k.m k.n
      let pv := V3.cross kv axis
      let len := Real.sqrt (pv.x * pv.x + pv.y * pv.y + pv.z * pv.z)
      if len > 0 then
        let pv : V3 ℝ := ⟨pv.x / len, pv.y / len, pv.z / len⟩
        let sv := V3.cross kv pv
        let Hx : ℂ := ⟨s.re * sv.x + pa.re * pv.x, s.im * sv.x + pa.im * pv.x⟩
        let Hy : ℂ := ⟨s.re * sv.y + pa.re * pv.y, s.im * sv.y + pa.im * pv.y⟩
        let Hz : ℂ := ⟨s.re * sv.z + pa.re * pv.z, s.im * sv.z + pa.im * pv.z⟩
        some (writes
          [((i * 2 + 0) * p + (band - 1), ⟨Hx.re * k.m.x + Hy.re * k.m.y + Hz.re * k.m.z, Hx.im * k.m.x + Hy.im * k.m.y + Hz.im * k.m.z⟩),
           ((i * 2 + 1) * p + (band - 1), ⟨Hx.re * k.n.x + Hy.re * k.n.y + Hz.re * k.n.z, Hx.im * k.n.x + Hy.im * k.n.y + Hz.im * k.n.z⟩)] H0)
      else none
    else some H0
  else none

/-- What all processes together do: the run goes on if no `CHECK` fails anywhere. -/
noncomputable def setPlanewave (lx : Layout P) (nx ny nz : ℕ) (kpg : Fin P → ℕ → KData) (p : ℕ) (H : Fin P → ℕ → ℂ) (band : ℕ) (g : V3 ℤ)
    (s pa : ℂ) (axis : V3 ℝ) : Option (Fin P → ℕ → ℂ) :=
  let R := fun r => setPlanewaveLocal nx ny nz (lx.start r) (lx.size r) (kpg r) p (H r) band g s pa axis
  if ∀ r, (R r).isSome then some fun r => (R r).getD (H r) else none

open Classical in
/-- `MPI_MAXLOC` on a number and a rank (MPI standard): the larger number; on ties the smaller rank. -/
noncomputable def maxloc (a b : ℝ × ℕ) : ℝ × ℕ := if a.1 > b.1 then a else if a.1 < b.1 then b else (a.1, min a.2 b.2)

/-- The part of `maxwell_dominant_planewave` before the communication on a process with `nG` plane waves, maxwell.c:314-338.  `none`: the
process has no plane wave and reads `k_plus_G[0]` behind the end of an empty array. -/
noncomputable def dominantLocal (nG : ℕ) (kpg : ℕ → KData) (p : ℕ) (H : ℕ → ℂ) (b : ℕ) : Option (ℝ × V3 ℝ) :=
  if nG = 0 then none
  else
    let amp := fun i => normSqr (H ((i * 2 + 0) * p + (b - 1))) + normSqr (H ((i * 2 + 1) * p + (b - 1)))
    let st := dominantLoop amp nG
    let k := kpg st.2
    let kv := V3.cross k.m k.n
    some (st.1, ⟨kv.x * k.kmag, kv.y * k.kmag, kv.z * k.kmag⟩)

/-- The communication in `maxwell_dominant_planewave`, maxwell.c:340-352.  `grank r` is `my_global_rank()` of process `r` of `mpb_comm`.
`none`: the root passed to `MPI_Bcast` is not a rank of the communicator. -/
noncomputable def dominantComm (grank : Fin P → ℕ) (res : Fin P → ℝ × V3 ℝ) : Option (V3 ℝ) :=
  match List.ofFn fun r => ((res r).1, grank r) with
  | [] => none
  | a :: l =>
    let root := (l.foldl maxloc a).2
    if h : root < P then some (res ⟨root, h⟩).2 else none

/-- `maxwell_dominant_planewave`, maxwell.c:312-354: what every process gets. -/
noncomputable def dominantPlanewave (grank : Fin P → ℕ) (nG : Fin P → ℕ) (kpg : Fin P → ℕ → KData) (p : ℕ) (H : Fin P → ℕ → ℂ) (band : ℤ) :
    Option (V3 ℝ) :=
  if 1 ≤ band ∧ band ≤ p then
    let R := fun r => dominantLocal (nG r) (kpg r) p (H r) band.toNat
    if ∀ r, (R r).isSome then dominantComm grank fun r => (R r).getD (0, ⟨0, 0, 0⟩) else none
  else none

/-! ## The operator -/

/-- The grid point `j` of process `r` in real space, as an index in the order x, y, z of the whole grid. -/
def point (ly : Layout P) (nx ny nz : ℕ) (r : Fin P) (j : ℕ) : ℕ := (j / nz % nx * ny + (ly.start r + j / nz / nx)) * nz + j % nz

/-- `maxwell_compute_fft(+1, …)` with MPI, maxwell_op.c:168-340: FFTW's distributed transform with `FFTW_MPI_TRANSPOSED_OUT` of `howmany`
interleaved sequences.  `W` is the matrix of the transform. -/
noncomputable def fftForward (W : ℕ → ℕ → ℂ) (lx ly : Layout P) (nx ny nz howmany : ℕ) (inp out : Fin P → ℕ → ℂ) : Fin P → ℕ → ℂ := fun r a =>
  if a < ly.size r * nx * nz * howmany then
    ∑ s, ∑ i ∈ Finset.range (lx.size s * ny * nz), W (point ly nx ny nz r (a / howmany)) (lx.start s * (ny * nz) + i) * inp s (i * howmany + a % howmany)
  else out r a

/-- `maxwell_compute_fft(-1, …)` with MPI: the way back, with `FFTW_MPI_TRANSPOSED_IN`. -/
noncomputable def fftBackward (W : ℕ → ℕ → ℂ) (lx ly : Layout P) (nx ny nz howmany : ℕ) (inp out : Fin P → ℕ → ℂ) : Fin P → ℕ → ℂ := fun r a =>
  if a < lx.size r * ny * nz * howmany then
    ∑ s, ∑ j ∈ Finset.range (ly.size s * nx * nz), W (lx.start r * (ny * nz) + a / howmany) (point ly nx ny nz s j) * inp s (j * howmany + a % howmany)
  else out r a

/-- The part of `maxwell_data` used by the operator, on all processes. -/
structure OpData (P : ℕ) where
  nx : ℕ
  ny : ℕ
  nz : ℕ
  lx : Layout P
  ly : Layout P
  /-- `num_fft_bands` -/
  nfb : ℕ
  /-- `k_plus_G` -/
  kpg : Fin P → ℕ → KData
  /-- `eps_inv` -/
  epsInv : Fin P → ℕ → HMat
  /-- `mu_inv`, `none` for `NULL` -/
  muInv : Option (Fin P → ℕ → HMat)
  /-- the matrix of `maxwell_compute_fft(+1, ...)` -/
  Wf : ℕ → ℕ → ℂ
  /-- the matrix of `maxwell_compute_fft(-1, ...)` -/
  Wb : ℕ → ℕ → ℂ

/-- `last_dim`, maxwell.c:65. -/
def OpData.ld (d : OpData P) : ℕ := Grid.lastDim ⟨d.nx, d.ny, d.nz⟩

/-- `other_dims = *local_N / d->last_dim` of a process, maxwell.c:144-147. -/
def OpData.od (d : OpData P) (r : Fin P) : ℕ := d.lx.size r * d.ny * d.nz / d.ld

/-- `fft_output_size`, maxwell.c:143. -/
def OpData.out (d : OpData P) (r : Fin P) : ℕ := d.ly.size r * d.nx * d.nz

/-- `X.N = nx * ny * nz`. -/
def OpData.N (d : OpData P) : ℕ := d.nx * d.ny * d.nz

/-- To real space, multiplication by the tensors `M`, and back: `maxwell_compute_d_from_H`, `maxwell_compute_e_from_d_`,
`maxwell_compute_H_from_e` (maxwell_op.c:398-503) for `ex = crossT2c`, `co = crossC2t`; the same with `t2c`, `c2t` in
`maxwell_compute_H_from_B` (maxwell_op.c:508-582). -/
noncomputable def around (ex : KData → ℂ → ℂ → V3 ℂ) (co : KData → V3 ℂ → ℝ → ℂ × ℂ) (d : OpData P) (M : Fin P → ℕ → HMat) (scale : ℝ) (p : ℕ)
    (Hin buf Hout : Fin P → ℕ → ℂ) (start num : ℕ) : Fin P → ℕ → ℂ :=
  let f := fftForward d.Wf d.lx d.ly d.nx d.ny d.nz (num * 3) (fun r => fillFft ex (d.od r) d.ld (d.kpg r) p (Hin r) (buf r) start num) buf
  let e := fun r => eFromD (d.out r) num (M r) (f r)
  fun r => storeBands co (d.od r) d.ld (d.kpg r) p (fftBackward d.Wb d.lx d.ly d.nx d.ny d.nz (num * 3) e e r) (Hout r) start num scale

/-- One pass of the band loop of `maxwell_operator`, maxwell_op.c:1199-1221. -/
noncomputable def operatorStep (d : OpData P) (p : ℕ) (Xin buf Xout : Fin P → ℕ → ℂ) (ch : ℕ × ℕ) : Fin P → ℕ → ℂ :=
  let scale := -1 / (d.N : ℝ)
  match d.muInv with
  | none => around crossT2c crossC2t d d.epsInv scale p Xin buf Xout ch.1 ch.2
  | some mu =>
    let X1 := around t2c c2t d mu (1 / (d.N : ℝ)) p Xin buf Xout ch.1 ch.2
    let X2 := around crossT2c crossC2t d d.epsInv scale p X1 buf X1 ch.1 ch.2
    around t2c c2t d mu (1 / (d.N : ℝ)) p X2 buf X2 ch.1 ch.2

/-- `maxwell_operator`, maxwell_op.c:1182-1222. -/
noncomputable def maxwellOperator (d : OpData P) (p : ℕ) (bufs : ℕ → Fin P → ℕ → ℂ) (Xin Xout : Fin P → ℕ → ℂ) : Option (Fin P → ℕ → ℂ) :=
  if d.nfb = 0 ∧ 0 < p then none
  else some ((bandChunks d.nfb p 0).foldl (fun X ch => operatorStep d p Xin (bufs ch.1) X ch) Xout)

/-- One pass of the band loop of `maxwell_muinv_operator`, maxwell_op.c:1238-1246. -/
noncomputable def muinvStep (d : OpData P) (p : ℕ) (Xin buf Xout : Fin P → ℕ → ℂ) (ch : ℕ × ℕ) : Fin P → ℕ → ℂ :=
  match d.muInv with
  | none => fun r => copySlice (d.lx.size r * d.ny * d.nz * 2) p (Xin r) (Xout r) ch.1 ch.2
  | some mu => around t2c c2t d mu (1 / (d.N : ℝ)) p Xin buf Xout ch.1 ch.2

/-- `maxwell_muinv_operator`, maxwell_op.c:1224-1247. -/
noncomputable def muinvOperator (d : OpData P) (p : ℕ) (bufs : ℕ → Fin P → ℕ → ℂ) (Xin Xout : Fin P → ℕ → ℂ) : Option (Fin P → ℕ → ℂ) :=
  if d.nfb = 0 ∧ 0 < p then none
  else some ((bandChunks d.nfb p 0).foldl (fun X ch => muinvStep d p Xin (bufs ch.1) X ch) Xout)

/-- `maxwell_ucross_op`, maxwell_op.c:1287-1334. -/
noncomputable def ucrossOperator (d : OpData P) (u : V3 ℝ) (p : ℕ) (bufs : ℕ → Fin P → ℕ → ℂ) (Xin Xout : Fin P → ℕ → ℂ) : Option (Fin P → ℕ → ℂ) :=
  if d.nfb = 0 ∧ 0 < p then none
  else some ((bandChunks d.nfb p 0).foldl (fun X ch =>
    around (ucrossT2c u) crossC2t d d.epsInv (-1 / (d.N : ℝ)) p Xin (bufs ch.1) X ch.1 ch.2) Xout)

end Mpb.Dist

import Verif.RealBuild.Model
import Verif.Target.Model

/-!
# Model of the preconditioners in the build for structures with inversion symmetry (maxwell_pre.c)

As `Verif/Target/Model.lean`, with real amplitudes, for an output array distinct from the input array and from the array of the matrix `YtY`.
Serial, FFTW 3.
-/

namespace Mpb.RealBuild
open Mpb.Maxwell Mpb.Target

/-- `assign_crossinv_t2c`, maxwell_pre.c:150-172, without `SCALAR_COMPLEX`. -/
noncomputable def crossinvT2cR (k : KData) (v0 v1 : ℝ) : V3 ℝ :=
  let kmagInv := -1 / fixDenom k.kmag
  ⟨(v0 * k.n.x - v1 * k.m.x) * kmagInv, (v0 * k.n.y - v1 * k.m.y) * kmagInv, (v0 * k.n.z - v1 * k.m.z) * kmagInv⟩

/-- `assign_crossinv_c2t`, maxwell_pre.c:177-207. -/
noncomputable def crossinvC2tR (k : KData) (a : V3 ℝ) (scale : ℝ) : ℝ × ℝ :=
  let at0 := a.x * k.m.x + a.y * k.m.y + a.z * k.m.z
  let at1 := a.x * k.n.x + a.y * k.n.y + a.z * k.n.z
  let scale := -scale / fixDenom k.kmag
  (-scale * at1, scale * at0)

/-- The loop multiplying by epsilon, maxwell_pre.c:271-283, in place, on the `fft_output_size` stored points. -/
noncomputable def timesEpsR (size num : ℕ) (epsInv : ℕ → HMat) (cdata : ℕ → ℝ) : ℕ → ℝ :=
  (loop2 size num).foldl (fun mem t =>
    let eps := 3 / ((epsInv t.1).m00 + (epsInv t.1).m11 + (epsInv t.1).m22)
    let ib := 3 * (t.1 * num + t.2)
    writes [(2 * (ib + 0), mem (2 * (ib + 0)) * eps), (2 * (ib + 0) + 1, mem (2 * (ib + 0) + 1) * eps),
      (2 * (ib + 1), mem (2 * (ib + 1)) * eps), (2 * (ib + 1) + 1, mem (2 * (ib + 1) + 1) * eps),
      (2 * (ib + 2), mem (2 * (ib + 2)) * eps), (2 * (ib + 2) + 1, mem (2 * (ib + 2) + 1) * eps)] mem) cdata

/-- One pass of the band loop of `maxwell_preconditioner2`, maxwell_pre.c:239-310.  (The transforms are shown in place; what an out-of-place
transform leaves beyond its output is not read.) -/
noncomputable def invStepR (w : Fftw) (d : RData) (p : ℕ) (buf X : ℕ → ℝ) (ch : ℕ × ℕ) : ℕ → ℝ :=
  let scale := -1 / (d.N : ℝ)
  let e := timesEpsR (fftOutputSize d.nx d.ny d.nz) ch.2 d.epsInv (fromHR crossinvT2cR d p X buf ch.1 ch.2)
  toHR crossinvC2tR w d p X e ch.1 ch.2 scale

/-- The band loop of `maxwell_preconditioner2`; `none` if it does not terminate. -/
noncomputable def invBandsR (w : Fftw) (d : RData) (p : ℕ) (bufs : ℕ → ℕ → ℝ) (X : ℕ → ℝ) : Option (ℕ → ℝ) :=
  if d.nfb = 0 ∧ 0 < p then none
  else some ((bandChunks d.nfb p 0).foldl (fun X ch => invStepR w d p (bufs ch.1) X ch) X)

/-- `evectmatrix_XeYS(Xout, Xin, YtY, 1)`, evectmatrix.c:103-132: `gemm` with `'N'`, `'C'`, factors 1 and 0; for real numbers `'C'` is the
transpose (BLAS by its definition). -/
def mixR (n p : ℕ) (S Xin Xout : ℕ → ℝ) : ℕ → ℝ := fun a =>
  if a < n * p then ∑ j ∈ Finset.range p, Xin (a / p * p + j) * S (a % p * p + j) else Xout a

/-- `maxwell_simple_precondition`, maxwell_pre.c:38-73. -/
noncomputable def simplePreconditionR (nG c p : ℕ) (kpGn2 : ℕ → ℝ) (epsInvMean : ℝ) (X : ℕ → ℝ) : ℕ → ℝ :=
  (loop3 nG c p).foldl (fun mem t =>
    let index := (t.1 * c + t.2.1) * p + t.2.2
    let scale := 1 / fixDenom (kpGn2 t.1 * epsInvMean)
    Function.update mem index (scale * mem index)) X

/-- The loops of `maxwell_target_preconditioner`, maxwell_pre.c:103-133. -/
noncomputable def squarePreconditionR (nG c p : ℕ) (kpGn2 : ℕ → ℝ) (epsInvMean : ℝ) (X : ℕ → ℝ) : ℕ → ℝ :=
  (loop3 nG c p).foldl (fun mem t =>
    let index := (t.1 * c + t.2.1) * p + t.2.2
    let scale := kpGn2 t.1 * epsInvMean
    let scale := scale * scale
    let scale := 1 / fixDenom scale
    Function.update mem index (scale * mem index)) X

/-- `maxwell_preconditioner`, maxwell_pre.c:75-81. -/
noncomputable def preconditionerR (d : RData) (kpGn2 : ℕ → ℝ) (epsInvMean : ℝ) (p : ℕ) (S Xin Xout : ℕ → ℝ) : ℕ → ℝ :=
  simplePreconditionR d.N 2 p kpGn2 epsInvMean (mixR (d.N * 2) p S Xin Xout)

/-- `maxwell_target_preconditioner`, maxwell_pre.c:83-134. -/
noncomputable def targetPreconditionerR (d : RData) (kpGn2 : ℕ → ℝ) (epsInvMean : ℝ) (p : ℕ) (S Xin Xout : ℕ → ℝ) : ℕ → ℝ :=
  squarePreconditionR d.N 2 p kpGn2 epsInvMean (mixR (d.N * 2) p S Xin Xout)

/-- `maxwell_preconditioner2`, maxwell_pre.c:212-311. -/
noncomputable def preconditioner2R (w : Fftw) (d : RData) (p : ℕ) (bufs : ℕ → ℕ → ℝ) (S Xin Xout : ℕ → ℝ) : Option (ℕ → ℝ) :=
  invBandsR w d p bufs (mixR (d.N * 2) p S Xin Xout)

/-- `maxwell_target_preconditioner2`, maxwell_pre.c:313-321; in the second call `Xout.data == Xin.data`. -/
noncomputable def targetPreconditioner2R (w : Fftw) (d : RData) (p : ℕ) (bufs bufs' : ℕ → ℕ → ℝ) (S Xin Xout : ℕ → ℝ) : Option (ℕ → ℝ) :=
  match preconditioner2R w d p bufs S Xin Xout with
  | none => none
  | some X => invBandsR w d p bufs' X

end Mpb.RealBuild

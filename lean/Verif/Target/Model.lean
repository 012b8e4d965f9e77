import Verif.Maxwell.Operator
import Verif.Mat.Model

/-!
# Model of the targeted operator and of the preconditioners (maxwell_op.c:1249-1282, maxwell_pre.c)

Arrays are those of `Verif.Mat`: a heap of numbered arrays, so that two arguments may be the same array.  Complex build, one process,
exact arithmetic; FFT and BLAS as in `Verif.Maxwell.Operator` and `Verif.Mat.Model`.
-/

namespace Mpb.Target

open Mpb.Maxwell Mpb.Mat

/-- An `evectmatrix` of `p` bands that fills array `k`: `n = localN * c` rows, `c = 2`. -/
def bundle (d : OpData) (p k : ℕ) : EM := ⟨d.N * 2, p, p, ⟨k, 0⟩⟩

/-- `maxwell_target_operator1`, maxwell_op.c:1255-1264, from array `xin` to array `xout`.  The operator itself does not use its
workspace argument (maxwell_op.c:1182-1222). -/
noncomputable def targetOperator1 (d : OpData) (w : ℝ) (p : ℕ) (bufs : ℕ → ℕ → ℂ) (xin xout : ℕ) (h : Heap) : Option Heap :=
  match maxwellOperator d p bufs (h xin) (h xout) with
  | none => none
  | some R => emaXpbY 1 (bundle d p xout) (-(w * w)) (bundle d p xin) (Function.update h xout R)

/-- `maxwell_target_operator`, maxwell_op.c:1270-1282.  `none` is the failing `CHECK` (workspace not distinct) or an operator that does
not return.  `Work.data` is not null. -/
noncomputable def targetOperator (d : OpData) (w : ℝ) (p : ℕ) (bufs bufs' : ℕ → ℕ → ℂ) (xin xout work : ℕ) (h : Heap) : Option Heap :=
  if d.N * 2 ≠ 0 ∧ (work = xin ∨ work = xout) then none
  else match targetOperator1 d w p bufs xin work h with
    | none => none
    | some h => targetOperator1 d w p bufs' work xout h

/-- `maxwell_preconditioner`, maxwell_pre.c:75-81. -/
noncomputable def preconditioner (d : OpData) (kpGn2 : ℕ → ℝ) (epsInvMean : ℝ) (p xin xout : ℕ) (YtY : SQ) (h : Heap) : Option Heap :=
  (emXeYS (bundle d p xout) (bundle d p xin) YtY true h).map fun h =>
    Function.update h xout (simplePrecondition d.N 2 p kpGn2 epsInvMean (h xout))

/-- The loops of `maxwell_target_preconditioner`, maxwell_pre.c:103-133 (`PRECOND_SUBTR_EIGS` is 0). -/
noncomputable def squarePrecondition (nG c p : ℕ) (kpGn2 : ℕ → ℝ) (epsInvMean : ℝ) (X : ℕ → ℂ) : ℕ → ℂ :=
  (loop3 nG c p).foldl (fun mem t =>
    let index := (t.1 * c + t.2.1) * p + t.2.2
    let scale := kpGn2 t.1 * epsInvMean
    let scale := scale * scale
    let scale := 1 / fixDenom scale
    Function.update mem index ⟨scale * (mem index).re, scale * (mem index).im⟩) X

/-- `maxwell_target_preconditioner`, maxwell_pre.c:83-134. -/
noncomputable def targetPreconditioner (d : OpData) (kpGn2 : ℕ → ℝ) (epsInvMean : ℝ) (p xin xout : ℕ) (YtY : SQ) (h : Heap) :
    Option Heap :=
  (emXeYS (bundle d p xout) (bundle d p xin) YtY true h).map fun h =>
    Function.update h xout (squarePrecondition d.N 2 p kpGn2 epsInvMean (h xout))

/-- The loop multiplying by epsilon, maxwell_pre.c:271-283, in place. -/
noncomputable def timesEps (fftOutputSize curNumBands : ℕ) (epsInv : ℕ → HMat) (cdata : ℕ → ℂ) : ℕ → ℂ :=
  (loop2 fftOutputSize curNumBands).foldl (fun mem t =>
    let eps := 3 / ((epsInv t.1).m00 + (epsInv t.1).m11 + (epsInv t.1).m22)
    let ib := 3 * (t.1 * curNumBands + t.2)
    write3 ib ⟨⟨(mem (ib + 0)).re * eps, (mem (ib + 0)).im * eps⟩, ⟨(mem (ib + 1)).re * eps, (mem (ib + 1)).im * eps⟩,
      ⟨(mem (ib + 2)).re * eps, (mem (ib + 2)).im * eps⟩⟩ mem) cdata

/-- One pass of the band loop of `maxwell_preconditioner2`, maxwell_pre.c:239-310.  `buf`, `buf2` are the old contents of `fft_data`,
`fft_data2`. -/
noncomputable def invStep (d : OpData) (p : ℕ) (buf buf2 X : ℕ → ℂ) (ch : ℕ × ℕ) : ℕ → ℂ :=
  let scale := -1 / (d.N : ℝ)
  let g := fillFft crossinvT2c d.od d.ld d.kpg p X buf2 ch.1 ch.2
  let f := computeFft d.Wf d.N (ch.2 * 3) g buf
  let e := timesEps d.N ch.2 d.epsInv f
  storeBands crossinvC2t d.od d.ld d.kpg p (computeFft d.Wb d.N (ch.2 * 3) e g) X ch.1 ch.2 scale

/-- The band loop of `maxwell_preconditioner2`, on the array of `Xout`; `none` if it does not terminate. -/
noncomputable def invBands (d : OpData) (p : ℕ) (bufs : ℕ → (ℕ → ℂ) × (ℕ → ℂ)) (X : ℕ → ℂ) : Option (ℕ → ℂ) :=
  if d.nfb = 0 ∧ 0 < p then none
  else some ((bandChunks d.nfb p 0).foldl (fun X ch => invStep d p (bufs ch.1).1 (bufs ch.1).2 X ch) X)

/-- `if (Xout.data != Xin.data) evectmatrix_XeYS(Xout, Xin, YtY, 1);`, maxwell_pre.c:229-230. -/
noncomputable def loadXout (d : OpData) (p xin xout : ℕ) (YtY : SQ) (h : Heap) : Option Heap :=
  if xout ≠ xin then emXeYS (bundle d p xout) (bundle d p xin) YtY true h else some h

/-- `maxwell_preconditioner2`, maxwell_pre.c:212-311. -/
noncomputable def preconditioner2 (d : OpData) (p : ℕ) (bufs : ℕ → (ℕ → ℂ) × (ℕ → ℂ)) (xin xout : ℕ) (YtY : SQ) (h : Heap) :
    Option Heap :=
  match loadXout d p xin xout YtY h with
  | none => none
  | some h => (invBands d p bufs (h xout)).map fun X => Function.update h xout X

/-- `maxwell_target_preconditioner2`, maxwell_pre.c:313-321. -/
noncomputable def targetPreconditioner2 (d : OpData) (p : ℕ) (bufs bufs' : ℕ → (ℕ → ℂ) × (ℕ → ℂ)) (xin xout : ℕ) (YtY : SQ)
    (h : Heap) : Option Heap :=
  match preconditioner2 d p bufs xin xout YtY h with
  | none => none
  | some h => preconditioner2 d p bufs' xout xout YtY h

end Mpb.Target

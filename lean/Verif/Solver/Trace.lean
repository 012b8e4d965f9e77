import Mathlib.LinearAlgebra.Matrix.PosDef
import Mathlib.LinearAlgebra.Matrix.NonsingularInverse
import Mathlib.LinearAlgebra.Matrix.Trace
import Mathlib.Analysis.Matrix.Normed
import Mathlib.Analysis.Calculus.FDeriv.Mul
import Mathlib.Analysis.Calculus.Deriv.Mul
import Mathlib.Analysis.SpecialFunctions.Trigonometric.Deriv
import Mathlib.Analysis.Complex.Order

/-!
# Model of the objective of the line minimisation (eigensolver.c: trace_func, Newton step)

`p × p` matrices are Mathlib matrices; the matrix library functions used here (`sqmatrix_*`) are modelled at memory level in `Verif.Mat`,
where it is proved that they compute these matrix expressions.  Real arithmetic is exact.
-/

namespace Mpb.Solver

open Matrix

open scoped ComplexOrder

/-- Square matrices of the block size. -/
abbrev Sq (p : ℕ) := Matrix (Fin p) (Fin p) ℂ

/-- `sqmatrix_traceAtB`, real part (sqmatrix.c). -/
noncomputable def reTrAtB {p : ℕ} (A B : Sq p) : ℝ := (Aᴴ * B).trace.re

/-- `trace_func_data` without the scratch matrices, eigensolver.c:107-110. -/
structure TraceData (p : ℕ) where
  YtAY : Sq p
  DtAD : Sq p
  symYtAD : Sq p
  YtBY : Sq p
  DtBD : Sq p
  symYtBD : Sq p
  lag : ℝ
  dLag : ℝ
  trYLY : ℝ
  trDLD : ℝ
  trYLD : ℝ

/-- `sqmatrix_copy(S, P); sqmatrix_aApbB(c*c, S, s*s, Q); sqmatrix_ApaB(S, 2*s*c, R)`, eigensolver.c:119-121, 145-147. -/
noncomputable def rotated {p : ℕ} (P Q R : Sq p) (c s : ℝ) : Sq p :=
  ((c * c : ℝ) : ℂ) • P + ((s * s : ℝ) : ℂ) • Q + ((2 * s * c : ℝ) : ℂ) • R

/-- `sqmatrix_copy(S3, P); sqmatrix_ApaB(S3, -1.0, Q); sqmatrix_aApbB(-0.5*s2, S3, c2, R)`, eigensolver.c:157-159, 166-168. -/
noncomputable def rotatedDeriv {p : ℕ} (P Q R : Sq p) (c2 s2 : ℝ) : Sq p :=
  ((-0.5 * s2 : ℝ) : ℂ) • (P + ((-1 : ℝ) : ℂ) • Q) + ((c2 : ℝ) : ℂ) • R

open Classical in
/-- The inverse of the overlap matrix, with the Taylor expansions used when the inversion fails, eigensolver.c:118-143.  `none`: a failed
`CHECK`.  `inv` is `sqmatrix_invert(·, 1, ·)`, `none` when it returns 0. -/
noncomputable def overlapInv {p : ℕ} (inv : Sq p → Option (Sq p)) (d : TraceData p) (c s : ℝ) : Option (Sq p) :=
  match inv (rotated d.YtBY d.DtBD d.symYtBD c s) with
  | some S1 => some S1
  | none =>
    if c < 0.0001 * s ∧ c ≠ 0 then
      (inv d.DtBD).map fun S1 =>
        let S2 := S1 * d.symYtBDᴴ
        let S3 := S2 * S1ᴴ
        ((1 / (s * s) : ℝ) : ℂ) • S1 + ((-2 * c / (s * s * s) : ℝ) : ℂ) • S3
    else if s < 0.0001 * c ∧ s ≠ 0 then
      (inv d.YtBY).map fun S1 =>
        let S2 := S1 * d.symYtBDᴴ
        let S3 := S2 * S1ᴴ
        ((1 / (c * c) : ℝ) : ℂ) • S1 + ((-2 * s / (c * c * c) : ℝ) : ℂ) • S3
    else none

/-- `trace_func`, eigensolver.c:112-179: the value and the derivative. -/
noncomputable def traceFunc {p : ℕ} (inv : Sq p → Option (Sq p)) (d : TraceData p) (theta : ℝ) : Option (ℝ × ℝ) :=
  let c := Real.cos theta
  let s := Real.sin theta
  (overlapInv inv d c s).map fun S1 =>
    let S2 := rotated d.YtAY d.DtAD d.symYtAD c s
    let trace := reTrAtB S2 S1 +
      (c * c * d.trYLY + s * s * d.trDLD + 2 * s * c * d.trYLD) * (c * d.lag + s * d.dLag)
    let c2 := Real.cos (2 * theta)
    let s2 := Real.sin (2 * theta)
    let S3 := rotatedDeriv d.YtAY d.DtAD d.symYtAD c2 s2
    let deriv := reTrAtB S1 S3
    let S3 := S1 * S2ᴴ
    let S2 := S3 * S1ᴴ
    let S3 := rotatedDeriv d.YtBY d.DtBD d.symYtBD c2 s2
    let deriv := deriv - reTrAtB S2 S3
    let deriv := deriv * 2
    let deriv := deriv + (-s2 * d.trYLY + s2 * d.trDLD + 2 * c2 * d.trYLD) * (c * d.lag + s * d.dLag)
    let deriv := deriv + (c * c * d.trYLY + s * s * d.trDLD + 2 * s * c * d.trYLD) * (-s * d.lag + c * d.dLag)
    (trace, deriv)

/-- The trace `E` of the current block, eigensolver.c:393-403: `YtAYU = YtAY * U` with `U = 1/YtBY`, and the Lagrange term. -/
noncomputable def traceE {p : ℕ} (d : TraceData p) (U : Sq p) : ℝ := (d.YtAY * U).trace.re + d.lag * d.trYLY

/-- The first derivative `dE` used for the Newton step, eigensolver.c:668-670, 687-688 (`YtAYU = YtAY * U`). -/
noncomputable def newtonDE {p : ℕ} (d : TraceData p) (U : Sq p) : ℝ :=
  let YtAYU := d.YtAY * U
  let S1 := U * d.symYtBDᴴ
  2 * (reTrAtB U d.symYtAD - reTrAtB YtAYU S1) + (d.lag * 2 * d.trYLD + d.dLag * d.trYLY)

/-- The second derivative `d2E` used for the Newton step, eigensolver.c:672-678, 689-690. -/
noncomputable def newtonD2E {p : ℕ} (d : TraceData p) (U : Sq p) : ℝ :=
  let YtAYU := d.YtAY * U
  let S1 := U * d.symYtBDᴴ
  let S2 := d.DtBD + ((-4 : ℝ) : ℂ) • (d.symYtBD * S1)
  let S3 := d.symYtAD * S1
  let S1 := U * S2ᴴ
  2 * (reTrAtB U d.DtAD - reTrAtB YtAYU S1 - 4 * reTrAtB U S3) + (d.lag * 2 * d.trDLD + d.dLag * 4 * d.trYLD)

/-- The data prepared for `trace_func` from the block `Y`, the direction `D` and the operators (matrices) `A`, `B`, `L`,
eigensolver.c:655-691, 721-724 (`symYtAD = sqmatrix_symmetrize(Yt A D)`, and `YtAYU * YtBY = YtAY`). -/
noncomputable def traceData {n : Type*} [Fintype n] {p : ℕ} (A B L : Matrix n n ℂ) (Y D : Matrix n (Fin p) ℂ) (lag dLag : ℝ) : TraceData p where
  YtAY := Yᴴ * (A * Y)
  DtAD := Dᴴ * (A * D)
  symYtAD := (0.5 : ℂ) • (Yᴴ * (A * D) + (Yᴴ * (A * D))ᴴ)
  YtBY := Yᴴ * (B * Y)
  DtBD := Dᴴ * (B * D)
  symYtBD := (0.5 : ℂ) • (Yᴴ * (B * D) + (Yᴴ * (B * D))ᴴ)
  lag := lag
  dLag := dLag
  trYLY := (Yᴴ * (L * Y)).trace.re
  trDLD := (Dᴴ * (L * D)).trace.re
  trYLD := (Yᴴ * (L * D)).trace.re

end Mpb.Solver

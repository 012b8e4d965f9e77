import Verif.Solver.TraceProps
import Mathlib.Analysis.SpecialFunctions.Trigonometric.Arctan

/-!
# Model of the iterative eigensolver (src/matrices/eigensolver.c)

`eigensolver` (eigensolver.c:825-838) is `eigensolver_lagrange` (198-823) without a Lagrange term, which is how mpb always calls it
(mpb/mpb.c:723, 756).  Column bundles (`evectmatrix`) and small square matrices are Mathlib matrices: the library functions used here are
modelled at memory level in `Verif.Mat`, where it is proved that they compute these expressions.  What is kept of the memory is the
sharing of the work arrays: bundles live in numbered slots, and the names `BY`, `D`, `BD`, `prev_G` are slots that may coincide with
others, depending on the amount of work space.

Outside the model, as parameters: LAPACK (`inv`, `invGen`, `sqrtm`, `heev`), `rand`, the contents left in scratch arrays, the measured
times, the number of evaluations granted to a line search.  Real arithmetic is exact; a division by zero that would produce a NaN is the
outcome `fail`.
-/

namespace Mpb.Eig

open Matrix Mpb.Solver

/-- Column bundles: `p` vectors of length `N`. -/
abbrev M (N p : ℕ) := Matrix (Fin N) (Fin p) ℂ

/-- The flags, src/matrices/eigensolver.h:77-88 (without `EIGS_VERBOSE`). -/
structure Flags where
  project : Bool
  resetCG : Bool
  forceExact : Bool
  forceApprox : Bool
  orthoFirst : Bool
  reorth : Bool
  dynReset : Bool
  orthoPre : Bool

/-- `EIGS_DEFAULT_FLAGS`, eigensolver.h:88. -/
def defaultFlags : Flags := ⟨false, true, false, false, false, true, false, false⟩

/-- The arguments, eigensolver.c:825-832: the operators `A`, `B` (matrices), the preconditioner (a function of the gradient, the block
and `YtBY`), the constraint (a linear operator), the number of work arrays, the tolerance, the flags.  `scratch`: the operators overwrite
the scratch array they are given. -/
structure Args (N p : ℕ) where
  A : Matrix (Fin N) (Fin N) ℂ
  B : Option (Matrix (Fin N) (Fin N) ℂ)
  K : Option (M N p → M N p → Sq p → M N p)
  C : Option (Matrix (Fin N) (Fin N) ℂ)
  nWork : ℕ
  tol : ℝ
  fl : Flags
  scratch : Bool

/-- Everything outside the model.  `rnd`: the random block of the i-th emergency restart.  `junk`: what an operator leaves in its scratch
array, by iteration and call.  `tExact`, `tApprox`: the times compared at the end of an iteration. -/
structure Env (N p : ℕ) where
  inv : Sq p → Option (Sq p)
  invGen : Sq p → Option (Sq p)
  sqrtm : Sq p → Sq p
  heev : Sq p → Sq p × (Fin p → ℝ)
  rnd : ℕ → M N p
  junk : ℕ → ℕ → M N p
  tExact : ℕ → ℝ
  tApprox : ℕ → ℝ
  evals : ℕ
  work : Linmin.Saved

/-- The state at the top of the loop: the column bundles by slot, `use_linmin`, whether `EIGS_FORCE_EXACT_LINMIN` is set (the code sets it
in its copy of `flags`), and the numbers carried from iteration to iteration, eigensolver.c:208-222. -/
structure St (N p : ℕ) where
  r : ℕ → M N p
  useLinmin : Bool
  forceExact : Bool
  prevE : ℝ
  dScale : ℝ
  prevTrGX : ℝ
  prevTheta : ℝ
  improvement : ℝ
  hist : ℕ → ℝ
  iter : ℕ
  restarts : ℕ

variable {N p : ℕ}

/-! ## The work arrays, eigensolver.c:230-268: slot 0 is `Y`, slot i + 1 is `Work[i]`; `G` is slot 1 and `X` slot 2. -/

def nB (a : Args N p) : ℕ := if a.B.isSome then 1 else 0

/-- `BY`, eigensolver.c:234-239. -/
def sBY (a : Args N p) : ℕ := if a.B.isSome then 3 else 0

/-- `usingConjugateGradient`, eigensolver.c:241. -/
def cg (a : Args N p) : Bool := a.nWork ≥ 3 + nB a

/-- `D`, eigensolver.c:242-248. -/
def sD (a : Args N p) : ℕ := if cg a then 3 + nB a else 2

/-- `BD`, eigensolver.c:250. -/
def sBD (a : Args N p) : ℕ := if a.B.isSome then sBY a else sD a

/-- `use_polak_ribiere`, eigensolver.c:252. -/
def pr (a : Args N p) : Bool := a.nWork ≥ 4 + nB a

/-- `prev_G`, eigensolver.c:253-262. -/
def sPrev (a : Args N p) : ℕ := if pr a then 4 + nB a else 1

/-- Store a bundle. -/
def put (r : ℕ → M N p) (k : ℕ) (x : M N p) : ℕ → M N p := Function.update r k x

/-- The contents of a scratch array after an operator was called. -/
def spoil (a : Args N p) (e : Env N p) (it site k : ℕ) (r : ℕ → M N p) : ℕ → M N p := if a.scratch then put r k (e.junk it site) else r

/-- `A(src, dst, Adata, ·, scr)`. -/
def opA (a : Args N p) (e : Env N p) (it site src dst scr : ℕ) (r : ℕ → M N p) : ℕ → M N p := put (spoil a e it site scr r) dst (a.A * r src)

/-- `if (B) B(src, dst, Bdata, ·, scr)`. -/
def opB (a : Args N p) (e : Env N p) (it site src dst scr : ℕ) (r : ℕ → M N p) : ℕ → M N p :=
  match a.B with
  | some B => put (spoil a e it site scr r) dst (B * r src)
  | none => r

/-- `if (constraint) constraint(·, constraint_data)`. -/
def constrain (a : Args N p) (k : ℕ) (r : ℕ → M N p) : ℕ → M N p :=
  match a.C with
  | some C => put r k (C * r k)
  | none => r

/-! ## The beginning of an iteration -/

/-- `YtBY`, normalised together with `Y` and `BY`, eigensolver.c:307-319, 352-363.  (For `YtBY = 0` the code divides by zero, and the
inversion of the resulting NaNs fails, as does that of the matrix 0 computed here.) -/
noncomputable def measure (a : Args N p) (e : Env N p) (it site : ℕ) (r : ℕ → M N p) : (ℕ → M N p) × Sq p :=
  let r := opB a e it site 0 (sBY a) 1 r
  let YtBY := (r 0)ᴴ * r (sBY a)
  let y := Real.sqrt (YtBY.trace.re / p)
  let r := put r 0 (((1 / y : ℝ) : ℂ) • r 0)
  let r := if a.B.isSome then put r (sBY a) (((1 / y : ℝ) : ℂ) • r (sBY a)) else r
  (r, ((1 / (y * y) : ℝ) : ℂ) • YtBY)

/-- The result of the preparation. -/
inductive Prep (N p : ℕ) where
  | fail
  | restart (r : ℕ → M N p)
  | ok (r : ℕ → M N p) (YtBY U : Sq p) (prevTrGX : ℝ)

open Classical in
/-- Normalisation, inversion of `YtBY`, and re-orthonormalisation, eigensolver.c:305-370. -/
noncomputable def prepare (a : Args N p) (e : Env N p) (s : St N p) : Prep N p :=
  let m := measure a e s.iter 0 s.r
  match e.inv m.2 with
  | none => .restart m.1
  | some U =>
    if a.fl.reorth = true ∧ U.trace.re > 10 ^ 8 * p then
      let S1 := e.sqrtm U
      let r := put m.1 1 (m.1 0 * S1ᴴ)
      let r := put r 0 (r 1)
      let m := measure a e s.iter 1 r
      match e.inv m.2 with
      | none => .fail
      | some U => .ok m.1 m.2 U 0
    else .ok m.1 m.2 U s.prevTrGX

/-- `X = AY`, `G = AYU`, `YtAYU`, eigensolver.c:372-383. -/
def evalTrace (a : Args N p) (e : Env N p) (it : ℕ) (U : Sq p) (r : ℕ → M N p) : (ℕ → M N p) × Sq p :=
  let r := opA a e it 2 0 2 1 r
  let r := put r 1 (r 2 * Uᴴ)
  (r, (r 0)ᴴ * r 1)

/-- The convergence test, eigensolver.c:415-417. -/
def Converged (tol : ℝ) (iter : ℕ) (E prevE : ℝ) : Prop := 0 < iter ∧ |E - prevE| < tol * 0.5 * (E + prevE + 1 / 10 ^ 7)

/-! ## The search direction -/

/-- The gradient `G = (1 - BY U Yt) A Y U`, eigensolver.c:419-421. -/
def gradient (a : Args N p) (U YtAYU : Sq p) (r : ℕ → M N p) : ℕ → M N p := put r 1 (r 1 - r (sBY a) * (U * YtAYU)ᴴ)

/-- `K(src, dst, Kdata, Y, NULL, YtBY)`, or a copy, eigensolver.c:427-434, 497-500. -/
def applyK (a : Args N p) (src Y : M N p) (YtBY : Sq p) : M N p :=
  match a.K with
  | some K => K src Y YtBY
  | none => src

/-- The preconditioned gradient, constrained and (optionally) projected, eigensolver.c:427-449. -/
def precond (a : Args N p) (YtBY U : Sq p) (r : ℕ → M N p) : ℕ → M N p :=
  let r := put r 2 (applyK a (r 1) (r 0) YtBY)
  let r := constrain a 2 r
  if a.fl.project then put r 2 (r 2 - r (sBY a) * (U * ((r 0)ᴴ * r 2))) else r

/-- `evectmatrix_traceXtY`, real part. -/
noncomputable def trXtY (X Y : M N p) : ℝ := (Xᴴ * Y).trace.re

/-- `gamma_numerator`, and the exchange of `G` and `prev_G` for Polak-Ribiere, eigensolver.c:460-481. -/
noncomputable def gammaNum (a : Args N p) (r : ℕ → M N p) : (ℕ → M N p) × ℝ :=
  if cg a then
    if pr a then
      let g := r 1
      let r := put r 1 (g - r (sPrev a))
      let r := put r (sPrev a) g
      (r, trXtY (r 1) (r 2))
    else (r, trXtY (r 1) (r 2))
  else (r, 0)

/-- The orthogonal preconditioner, eigensolver.c:493-525; the result is the bundles and the change of the trace.  `none`: "singular
YtKY". -/
noncomputable def orthoPre (a : Args N p) (e : Env N p) (YtBY : Sq p) (r : ℕ → M N p) : Option ((ℕ → M N p) × ℝ) :=
  if a.fl.orthoPre then
    let r := put r 1 (applyK a (r 0) (r 0) YtBY)
    (e.invGen ((r 0)ᴴ * r 1)).map fun S1 =>
      let S2 := (r 2)ᴴ * r 0
      let S3 := S2 * S1ᴴ
      (put r 2 (r 2 - r 1 * S3ᴴ), -(S3ᴴ * S2).trace.re)
  else some (r, 0)

/-- The size of the history, eigensolver.c:183. -/
def histSize : ℕ := 5

open Classical in
/-- `gamma`, and the history after a dynamic reset, eigensolver.c:531-556. -/
noncomputable def gammaOf (a : Args N p) (s : St N p) (hist : ℕ → ℝ) (num prevTr : ℝ) : ℝ × (ℕ → ℝ) :=
  let gamma := if prevTr = 0 then 0 else num / prevTr
  let dyn : Bool := a.fl.dynReset = true ∧ 2 * hist (s.iter % histSize) ≥ hist ((s.iter + 1) % histSize)
  let gamma := if dyn then 0 else gamma
  let hist := if dyn then fun i => if i = s.iter % histSize then hist i else 10000 else hist
  let gamma := if a.fl.resetCG = true ∧ (s.iter + 1) % 70 = 0 then 0 else gamma
  (gamma, hist)

/-- The state after the search direction was computed: bundles, `traceGtX`, the history. -/
structure Dir (N p : ℕ) where
  r : ℕ → M N p
  trGX : ℝ
  hist : ℕ → ℝ

/-- From the gradient to the search direction `D`, eigensolver.c:419-562.  `prevTr` is `prev_traceGtX` after the preparation. -/
noncomputable def direction (a : Args N p) (e : Env N p) (s : St N p) (hist : ℕ → ℝ) (prevTr : ℝ) (YtBY U YtAYU : Sq p) (r : ℕ → M N p) :
    Option (Dir N p) :=
  let r := precond a YtBY U (gradient a U YtAYU r)
  let trGX := trXtY (r 1) (r 2)
  let g := gammaNum a r
  (orthoPre a e YtBY g.1).map fun o =>
    if cg a then
      let ga := gammaOf a s hist (g.2 + o.2) prevTr
      ⟨put o.1 (sD a) (((ga.1 * s.dScale : ℝ) : ℂ) • o.1 (sD a) + o.1 2), trGX + o.2, ga.2⟩
    else ⟨o.1, trGX + o.2, hist⟩

/-! ## The line minimisation -/

/-- What the line minimisations pass on: bundles, `U`, the angle, `prev_theta`, `use_linmin`, the flag, `d_scale`,
`linmin_improvement`. -/
structure Lin (N p : ℕ) where
  r : ℕ → M N p
  U : Sq p
  theta : ℝ
  prevTheta : ℝ
  useLinmin : Bool
  forceExact : Bool
  dScale : ℝ
  improvement : ℝ

open Classical in
/-- The approximate line minimisation, eigensolver.c:567-645.  `none`: singular overlap, or a NaN.  (With `d2E = 0` the quotient is
infinite: the predicted change is too big.) -/
noncomputable def approxMin (a : Args N p) (e : Env N p) (it : ℕ) (E prevE : ℝ) (l : Lin N p) : Option (Lin N p) :=
  let r := match a.B with | some B => put l.r (sBD a) (B * l.r (sD a)) | none => l.r
  let dNorm := Real.sqrt (trXtY (r (sBD a)) (r (sD a)) / p)
  if dNorm = 0 then none
  else
    let dE := 2 * trXtY (r (sPrev a)) (r (sD a)) / dNorm
    let t := if dE < 0 then -|l.prevTheta| else |l.prevTheta|
    let r := put r 0 (r 0 + ((t / dNorm : ℝ) : ℂ) • r (sD a))
    let r := opB a e it 3 0 (sBY a) 1 r
    match e.inv ((r 0)ᴴ * r (sBY a)) with
    | none => none
    | some U =>
      let r := opA a e it 4 0 1 2 r
      let S1 := (r 0)ᴴ * r 1
      let E2 := (S1ᴴ * U).trace.re
      if t = 0 then none
      else
        let d2E := (E2 - E - dE * t) / (0.5 * t * t)
        if d2E = 0 ∧ (dE = 0 ∨ a.fl.forceApprox = true) then none
        else
          let theta := -dE / d2E
          if d2E < 0 ∨ d2E = 0 ∨ -0.5 * dE * theta > 20 * |E - prevE| then
            if a.fl.forceApprox then some { l with r := r, U := U, theta := theta }
            else
              let r := put r 0 (r 0 + ((-t / dNorm : ℝ) : ℂ) • r (sD a))
              some { l with r := r, U := U, theta := theta, prevTheta := Real.arctan l.prevTheta, useLinmin := true, forceExact := true }
          else some { l with r := put r 0 (r 0 + (((theta - t) / dNorm : ℝ) : ℂ) • r (sD a)), U := U, theta := theta }

/-- `dE`, eigensolver.c:668-670, for the matrices at hand: `YtAYU` was computed at the beginning of the iteration, `U` is the current
one. -/
noncomputable def slopeOf (d : TraceData p) (YtAYU U : Sq p) : ℝ := 2 * (reTrAtB U d.symYtAD - reTrAtB YtAYU (U * d.symYtBDᴴ))

/-- `d2E`, eigensolver.c:672-678. -/
noncomputable def curvatureOf (d : TraceData p) (YtAYU U : Sq p) : ℝ :=
  let S1 := U * d.symYtBDᴴ
  let S2 := d.DtBD + ((-4 : ℝ) : ℂ) • (d.symYtBD * S1)
  let S3 := d.symYtAD * S1
  let S1 := U * S2ᴴ
  2 * (reTrAtB U d.DtAD - reTrAtB YtAYU S1 - 4 * reTrAtB U S3)

/-- The matrices for `trace_func`, eigensolver.c:655-666, 692-695, 721-724: `Y`, `D`, `BD` and `G = AD`. -/
noncomputable def dataOf (Y D BD G : M N p) (YtAYU YtBY : Sq p) : TraceData p where
  YtAY := YtAYU * YtBYᴴ
  DtAD := Dᴴ * G
  symYtAD := (0.5 : ℂ) • (Yᴴ * G + (Yᴴ * G)ᴴ)
  YtBY := YtBY
  DtBD := Dᴴ * BD
  symYtBD := (0.5 : ℂ) • (Yᴴ * BD + (Yᴴ * BD)ᴴ)
  lag := 0
  dLag := 0
  trYLY := 0
  trDLD := 0
  trYLD := 0

/-- The exact line minimisation, eigensolver.c:646-748.  `none`: the direction is zero, or the line search does not end normally. -/
noncomputable def exactMin (a : Args N p) (e : Env N p) (it : ℕ) (E : ℝ) (YtAYU YtBY : Sq p) (l : Lin N p) : Option (Lin N p) :=
  let r := opB a e it 5 (sD a) (sBD a) 1 l.r
  let dScale := Real.sqrt (trXtY (r (sBD a)) (r (sD a)) / p)
  if dScale = 0 then none
  else
    let r := put r (sD a) (((1 / dScale : ℝ) : ℂ) • r (sD a))
    let r := if a.B.isSome then put r (sBD a) (((1 / dScale : ℝ) : ℂ) • r (sBD a)) else r
    let r := opA a e it 6 (sD a) 1 2 r
    let d := dataOf (r 0) (r (sD a)) (r (sBD a)) (r 1) YtAYU YtBY
    let dE := slopeOf d YtAYU l.U
    let theta := Linmin.thetaGuess dE (curvatureOf d YtAYU l.U) l.prevTheta
    match Linmin.linmin (Linmin.solverPar a.tol dE) (fun t => (traceFunc e.inv d t).getD (0, 0)) (e.evals + 1) theta E dE e.work with
    | .done x newE _ _ =>
      some { l with
        r := put r 0 (((Real.cos x : ℝ) : ℂ) • r 0 + ((Real.sin x : ℝ) : ℂ) • r (sD a))
        theta := x
        dScale := dScale
        improvement := |E - newE| * 2 / |E + newE| }
    | _ => none

/-! ## The loop -/

/-- `EIGENSOLVER_MAX_ITERATIONS`, eigensolver.c:67. -/
def maxIterations : ℕ := 100000

/-- The outcome of one pass through the loop. -/
inductive Out (N p : ℕ) where
  /-- a failed `CHECK`, a NaN, or a line search that does not end -/
  | fail
  /-- `goto restartY` -/
  | restart (s : St N p)
  /-- `break`, with the trace -/
  | converged (s : St N p) (E : ℝ)
  /-- the next iteration, with the trace of this one -/
  | next (s : St N p) (E : ℝ)

open Classical in
/-- The end of an iteration, eigensolver.c:750-796: constraint, previous values, choice of the algorithm. -/
noncomputable def finishIter (a : Args N p) (e : Env N p) (s : St N p) (E trGX : ℝ) (hist : ℕ → ℝ) (l : Lin N p) : St N p :=
  let r := constrain a 0 l.r
  let approx : Bool := l.forceExact = false ∧ l.improvement > 0 ∧ l.improvement ≤ 0.05 ∧ e.tExact s.iter > e.tApprox s.iter * 2
  { r := r
    useLinmin := if approx then false else if a.fl.forceApprox then l.useLinmin else true
    forceExact := l.forceExact
    prevE := E
    dScale := l.dScale
    prevTrGX := trGX
    prevTheta := if approx then l.theta else if a.fl.forceApprox then l.theta else Real.arctan l.theta
    improvement := l.improvement
    hist := hist
    iter := s.iter + 1
    restarts := s.restarts }

/-- The line minimisations, eigensolver.c:564-748. -/
noncomputable def lineMin (a : Args N p) (e : Env N p) (it : ℕ) (E prevE : ℝ) (YtAYU YtBY : Sq p) (l : Lin N p) : Option (Lin N p) :=
  (if l.useLinmin then some l else approxMin a e it E prevE l).bind fun l => if l.useLinmin then exactMin a e it E YtAYU YtBY l else some l

open Classical in
/-- One pass through the loop, eigensolver.c:299-797. -/
noncomputable def step (a : Args N p) (e : Env N p) (s : St N p) : Out N p :=
  let useLinmin := if a.fl.forceApprox then false else s.useLinmin
  match prepare a e s with
  | .fail => .fail
  | .restart r =>
    if s.iter + 10 * (s.restarts + 1) < maxIterations then
      .restart { s with r := put r 0 (e.rnd s.restarts), restarts := s.restarts + 1, useLinmin := useLinmin }
    else .fail
  | .ok r YtBY U prevTr =>
    let t := evalTrace a e s.iter U r
    let E := t.2.trace.re
    let hist := fun i => if i = s.iter % histSize then 200 * |E - s.prevE| / (|E| + |s.prevE|) else s.hist i
    if Converged a.tol s.iter E s.prevE then .converged { s with r := t.1 } E
    else
      match direction a e s hist prevTr YtBY U t.2 t.1 with
      | none => .fail
      | some d =>
        match lineMin a e s.iter E s.prevE t.2 YtBY ⟨d.r, U, 0, s.prevTheta, useLinmin, s.forceExact, 1, s.improvement⟩ with
        | none => .fail
        | some l => .next (finishIter a e s E d.trGX d.hist l) E

/-- At `restartY`, eigensolver.c:277-297: optional orthonormalisation, history, constraint.  `none`: "non-independent initial Y". -/
noncomputable def begin (a : Args N p) (e : Env N p) (s : St N p) : Option (St N p) :=
  (if a.fl.orthoFirst then
    let r := opB a e s.iter 7 0 (sBY a) 1 s.r
    (e.inv ((r 0)ᴴ * r (sBY a))).map fun U =>
      let r := put r 1 (r 0 * (e.sqrtm U)ᴴ)
      put r 0 (r 1)
  else some s.r).map fun r => { s with r := constrain a 0 r, hist := fun _ => 10000 }

/-- An entry of the record of a run: the trace of an iteration, or an emergency restart. -/
inductive Event where
  | trace (E : ℝ)
  | restart

/-- How a run ends. -/
inductive Result (N p : ℕ) where
  | outOfFuel
  | fail
  | done (s : St N p) (log : List Event)

/-- The loop, eigensolver.c:299-803, from the top of an iteration; `log` is the record so far, the latest entry first. -/
noncomputable def loop (a : Args N p) (e : Env N p) : ℕ → St N p → List Event → Result N p
  | 0, _, _ => .outOfFuel
  | f + 1, s, log =>
    match step a e s with
    | .fail => .fail
    | .converged s E => .done s (.trace E :: log)
    | .restart s =>
      match begin a e s with
      | none => .fail
      | some s => loop a e f s (.restart :: log)
    | .next s E => if s.iter < maxIterations then loop a e f s (.trace E :: log) else .fail

/-- The state before `restartY`, eigensolver.c:208-222, 241-262: `D` and `prev_G`, where they are arrays of their own, are zero; the other
work arrays hold anything. -/
noncomputable def initial (a : Args N p) (Y : M N p) (work : ℕ → M N p) : St N p where
  r := fun k => if k = 0 then Y else if (cg a = true ∧ k = sD a) ∨ (pr a = true ∧ k = sPrev a) then 0 else work k
  useLinmin := true
  forceExact := a.fl.forceExact
  prevE := 0
  dScale := 1
  prevTrGX := 0
  prevTheta := 0.5
  improvement := 0
  hist := fun _ => 10000
  iter := 0
  restarts := 0

/-- After the loop, eigensolver.c:804-813 and `eigensolver_get_eigenvals_aux` (eigensolver_utils.c:32-48): the final block and the
eigenvalues. -/
noncomputable def finish (a : Args N p) (e : Env N p) (s : St N p) : Option (M N p × (Fin p → ℝ)) :=
  let r := opB a e s.iter 8 0 (sBY a) 1 s.r
  (e.inv ((r 0)ᴴ * r (sBY a))).map fun U =>
    let W := r 0 * (e.sqrtm U)ᴴ
    let V := e.heev (Wᴴ * (a.A * W))
    (W * V.1ᴴ, V.2)

/-- The result of `eigensolver`: the block, its eigenvalues, the number of iterations and the record. -/
structure Solution (N p : ℕ) where
  Y : M N p
  vals : Fin p → ℝ
  iterations : ℕ
  log : List Event

/-- `eigensolver`, eigensolver.c:198-838.  `none`: the program aborts (or `fuel` is too small). -/
noncomputable def eigensolver (a : Args N p) (e : Env N p) (fuel : ℕ) (Y : M N p) (work : ℕ → M N p) : Option (Solution N p) :=
  if a.nWork < 2 + nB a then none
  else
    match begin a e (initial a Y work) with
    | none => none
    | some s =>
      match loop a e fuel s [] with
      | .done s log => (finish a e s).map fun v => ⟨v.1, v.2, s.iter, log.reverse⟩
      | _ => none

end Mpb.Eig

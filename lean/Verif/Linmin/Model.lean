import Mathlib.Analysis.SpecialFunctions.Trigonometric.Basic
import Mathlib.Analysis.SpecialFunctions.Sqrt

/-!
# Line search: model of minpack2-linmin.c and linmin.c

Real arithmetic is exact.  `none` represents a NaN: a division by zero or the square root of a negative number.
-/

namespace Mpb.Linmin

open Classical in
/-- Division; `none` for a division by zero. -/
noncomputable def cdiv (a b : ℝ) : Option ℝ := if b = 0 then none else some (a / b)

open Classical in
/-- Square root; `none` for a negative argument. -/
noncomputable def csqrt (x : ℝ) : Option ℝ := if x < 0 then none else some (Real.sqrt x)

/-- The in/out arguments of `dcstep`. -/
structure Step where
  stx : ℝ
  fx : ℝ
  dx : ℝ
  sty : ℝ
  fy : ℝ
  dy : ℝ
  stp : ℝ
  brackt : Bool

/-- `theta / s` squared and so on: `s * sqrt((theta/s)^2 - (a/s)*(b/s))` with `s = max(|theta|, |a|, |b|)`, the scaled square root of
minpack2-linmin.c:573-579, 602-608, 696-702. -/
noncomputable def gammaOf (theta a b : ℝ) : Option ℝ := do
  let s := max (max |theta| |a|) |b|
  let t ← cdiv theta s
  let u ← cdiv a s
  let v ← cdiv b s
  let r ← csqrt (t * t - u * v)
  some (s * r)

/-- First case of `dcstep`, minpack2-linmin.c:567-594: a higher function value. -/
noncomputable def case1 (s : Step) (fp dp : ℝ) : Option ℝ := do
  let t0 ← cdiv ((s.fx - fp) * 3) (s.stp - s.stx)
  let theta := t0 + s.dx + dp
  let gamma ← gammaOf theta s.dx dp
  let gamma := open Classical in if s.stp < s.stx then -gamma else gamma
  let p := gamma - s.dx + theta
  let q := gamma - s.dx + gamma + dp
  let r ← cdiv p q
  let stpc := s.stx + r * (s.stp - s.stx)
  let a ← cdiv (s.fx - fp) (s.stp - s.stx)
  let b ← cdiv s.dx (a + s.dx)
  let stpq := s.stx + b / 2 * (s.stp - s.stx)
  some (open Classical in if |stpc - s.stx| < |stpq - s.stx| then stpc else stpc + (stpq - stpc) / 2)

/-- Second case of `dcstep`, minpack2-linmin.c:596-623: lower value, derivatives of opposite sign. -/
noncomputable def case2 (s : Step) (fp dp : ℝ) : Option ℝ := do
  let t0 ← cdiv ((s.fx - fp) * 3) (s.stp - s.stx)
  let theta := t0 + s.dx + dp
  let gamma ← gammaOf theta s.dx dp
  let gamma := open Classical in if s.stp > s.stx then -gamma else gamma
  let p := gamma - dp + theta
  let q := gamma - dp + gamma + s.dx
  let r ← cdiv p q
  let stpc := s.stp + r * (s.stx - s.stp)
  let a ← cdiv dp (dp - s.dx)
  let stpq := s.stp + a * (s.stx - s.stp)
  some (open Classical in if |stpc - s.stp| > |stpq - s.stp| then stpc else stpq)

/-- The cubic step of the third case, minpack2-linmin.c:630-656. -/
noncomputable def case3cubic (s : Step) (fp dp stpmin stpmax : ℝ) : Option ℝ := do
  let t0 ← cdiv ((s.fx - fp) * 3) (s.stp - s.stx)
  let theta := t0 + s.dx + dp
  let sc := max (max |theta| |s.dx|) |dp|
  let t ← cdiv theta sc
  let u ← cdiv s.dx sc
  let v ← cdiv dp sc
  let rt ← csqrt (max 0 (t * t - u * v))
  let gamma := sc * rt
  let gamma := open Classical in if s.stp > s.stx then -gamma else gamma
  let p := gamma - dp + theta
  let q := gamma + (s.dx - dp) + gamma
  let r ← cdiv p q
  some (open Classical in
    if r < 0 ∧ gamma ≠ 0 then s.stp + r * (s.stx - s.stp) else if s.stp > s.stx then stpmax else stpmin)

/-- Third case of `dcstep`, minpack2-linmin.c:624-688: lower value, same sign, smaller derivative. -/
noncomputable def case3 (s : Step) (fp dp stpmin stpmax : ℝ) : Option ℝ := do
  let stpc ← case3cubic s fp dp stpmin stpmax
  let a ← cdiv dp (dp - s.dx)
  let stpq := s.stp + a * (s.stx - s.stp)
  if s.brackt then
    let stpf := open Classical in if |stpc - s.stp| < |stpq - s.stp| then stpc else stpq
    some (open Classical in
      if s.stp > s.stx then min (s.stp + (s.sty - s.stp) * 0.66) stpf else max (s.stp + (s.sty - s.stp) * 0.66) stpf)
  else
    let stpf := open Classical in if |stpc - s.stp| > |stpq - s.stp| then stpc else stpq
    some (max stpmin (min stpmax stpf))

/-- Fourth case of `dcstep`, minpack2-linmin.c:689-716. -/
noncomputable def case4 (s : Step) (fp dp stpmin stpmax : ℝ) : Option ℝ :=
  if s.brackt then do
    let t0 ← cdiv ((fp - s.fy) * 3) (s.sty - s.stp)
    let theta := t0 + s.dy + dp
    let gamma ← gammaOf theta s.dy dp
    let gamma := open Classical in if s.stp > s.sty then -gamma else gamma
    let p := gamma - dp + theta
    let q := gamma - dp + gamma + s.dy
    let r ← cdiv p q
    some (s.stp + r * (s.sty - s.stp))
  else some (open Classical in if s.stp > s.stx then stpmax else stpmin)

open Classical in
/-- `dcstep`, minpack2-linmin.c:463-735. -/
noncomputable def dcstep (s : Step) (fp dp stpmin stpmax : ℝ) : Option Step := do
  let sg ← cdiv s.dx |s.dx|
  let sgnd := dp * sg
  let stpf ← (if fp > s.fx then case1 s fp dp
    else if sgnd < 0 then case2 s fp dp
    else if |dp| < |s.dx| then case3 s fp dp stpmin stpmax
    else case4 s fp dp stpmin stpmax)
  let brackt := if fp > s.fx then true else if sgnd < 0 then true else s.brackt
  if fp > s.fx then some { s with sty := s.stp, fy := fp, dy := dp, stp := stpf, brackt := brackt }
  else if sgnd < 0 then
    some { stx := s.stp, fx := fp, dx := dp, sty := s.stx, fy := s.fx, dy := s.dx, stp := stpf, brackt := brackt }
  else some { s with stx := s.stp, fx := fp, dx := dp, stp := stpf, brackt := brackt }

/-- The messages written to `task`. -/
inductive Task where
  | start
  | fg
  | conv
  | warnRounding
  | warnXtol
  | warnStpmax
  | warnStpmin
  | errStpLtStpmin
  | errStpGtStpmax
  | errG
  | errFtol
  | errGtol
  | errXtol
  | errStpmin
  | errStpmax
deriving DecidableEq

/-- The first letters of the message are `WARN`. -/
def Task.isWarn : Task → Bool
  | .warnRounding => true
  | .warnXtol => true
  | .warnStpmax => true
  | .warnStpmin => true
  | _ => false

/-- The first letter of the message is `E`. -/
def Task.isError : Task → Bool
  | .errStpLtStpmin => true
  | .errStpGtStpmax => true
  | .errG => true
  | .errFtol => true
  | .errGtol => true
  | .errXtol => true
  | .errStpmin => true
  | .errStpmax => true
  | _ => false

/-- The local variables of `dcsrch` that live across calls. -/
structure Local where
  brackt : Bool
  stage : ℤ
  ginit : ℝ
  gtest : ℝ
  gx : ℝ
  gy : ℝ
  finit : ℝ
  fx : ℝ
  fy : ℝ
  stx : ℝ
  sty : ℝ
  stmin : ℝ
  stmax : ℝ
  width : ℝ
  width1 : ℝ

/-- The work arrays `isave[2]`, `dsave[13]` (indices as in C). -/
structure Saved where
  isave : ℕ → ℤ
  dsave : ℕ → ℝ

/-- "Save local variables", minpack2-linmin.c:438-458. -/
noncomputable def save (l : Local) (w : Saved) : Saved where
  isave := fun i => if i = 0 then (if l.brackt then 1 else 0) else if i = 1 then l.stage else w.isave i
  dsave := fun i =>
    if i = 0 then l.ginit else if i = 1 then l.gtest else if i = 2 then l.gx else if i = 3 then l.gy else if i = 4 then l.finit
    else if i = 5 then l.fx else if i = 6 then l.fy else if i = 7 then l.stx else if i = 8 then l.sty else if i = 9 then l.stmin
    else if i = 10 then l.stmax else if i = 11 then l.width else if i = 12 then l.width1 else w.dsave i

/-- "Restore local variables", minpack2-linmin.c:336-355. -/
noncomputable def restore (w : Saved) : Local where
  brackt := w.isave 0 = 1
  stage := w.isave 1
  ginit := w.dsave 0
  gtest := w.dsave 1
  gx := w.dsave 2
  gy := w.dsave 3
  finit := w.dsave 4
  fx := w.dsave 5
  fy := w.dsave 6
  stx := w.dsave 7
  sty := w.dsave 8
  stmin := w.dsave 9
  stmax := w.dsave 10
  width := w.dsave 11
  width1 := w.dsave 12

/-- The constant arguments of `dcsrch`. -/
structure Par where
  ftol : ℝ
  gtol : ℝ
  xtol : ℝ
  stpmin : ℝ
  stpmax : ℝ

open Classical in
/-- The input checks at `START`, minpack2-linmin.c:281-306: later messages overwrite earlier ones. -/
noncomputable def checkStart (P : Par) (stp g : ℝ) : Task :=
  let t := Task.start
  let t := if stp < P.stpmin then .errStpLtStpmin else t
  let t := if stp > P.stpmax then .errStpGtStpmax else t
  let t := if g ≥ 0 then .errG else t
  let t := if P.ftol < 0 then .errFtol else t
  let t := if P.gtol < 0 then .errGtol else t
  let t := if P.xtol < 0 then .errXtol else t
  let t := if P.stpmin < 0 then .errStpmin else t
  if P.stpmax < P.stpmin then .errStpmax else t

/-- Initialisation, minpack2-linmin.c:311-333. -/
noncomputable def initLocal (P : Par) (stp f g : ℝ) : Local where
  brackt := false
  stage := 1
  finit := f
  ginit := g
  gtest := P.ftol * g
  width := P.stpmax - P.stpmin
  width1 := (P.stpmax - P.stpmin) / 0.5
  stx := 0
  fx := f
  gx := g
  sty := 0
  fy := f
  gy := g
  stmin := 0
  stmax := stp + stp * 4

open Classical in
/-- Stage update and the tests for warnings and convergence, minpack2-linmin.c:357-380. -/
noncomputable def testTask (P : Par) (l : Local) (stp f g : ℝ) : Task :=
  let ftest := l.finit + stp * l.gtest
  let t := Task.fg
  let t := if l.brackt = true ∧ (stp ≤ l.stmin ∨ stp ≥ l.stmax) then .warnRounding else t
  let t := if l.brackt = true ∧ l.stmax - l.stmin ≤ P.xtol * l.stmax then .warnXtol else t
  let t := if stp = P.stpmax ∧ f ≤ ftest ∧ g ≤ l.gtest then .warnStpmax else t
  let t := if stp = P.stpmin ∧ (f > ftest ∨ g ≥ l.gtest) then .warnStpmin else t
  if f ≤ ftest ∧ |g| ≤ P.gtol * (-l.ginit) then .conv else t

open Classical in
/-- The call of `dcstep`, with the modified function in the first stage, minpack2-linmin.c:386-409: new locals and step. -/
noncomputable def stepCall (l : Local) (stp f g : ℝ) : Option (Local × ℝ) :=
  let ftest := l.finit + stp * l.gtest
  if l.stage = 1 ∧ f ≤ l.fx ∧ f > ftest then do
    let fm := f - stp * l.gtest
    let fxm := l.fx - l.stx * l.gtest
    let fym := l.fy - l.sty * l.gtest
    let gm := g - l.gtest
    let gxm := l.gx - l.gtest
    let gym := l.gy - l.gtest
    let s ← dcstep ⟨l.stx, fxm, gxm, l.sty, fym, gym, stp, l.brackt⟩ fm gm l.stmin l.stmax
    some ({ l with brackt := s.brackt, stx := s.stx, sty := s.sty, fx := s.fx + s.stx * l.gtest, fy := s.fy + s.sty * l.gtest,
                   gx := s.dx + l.gtest, gy := s.dy + l.gtest }, s.stp)
  else do
    let s ← dcstep ⟨l.stx, l.fx, l.gx, l.sty, l.fy, l.gy, stp, l.brackt⟩ f g l.stmin l.stmax
    some ({ l with brackt := s.brackt, stx := s.stx, sty := s.sty, fx := s.fx, fy := s.fy, gx := s.dx, gy := s.dy }, s.stp)

open Classical in
/-- Bisection, limits and clamping, minpack2-linmin.c:410-436. -/
noncomputable def finish (P : Par) (l : Local) (stp : ℝ) : Local × ℝ :=
  let stp := if l.brackt = true ∧ |l.sty - l.stx| ≥ l.width1 * 0.66 then l.stx + (l.sty - l.stx) * 0.5 else stp
  let l := if l.brackt then { l with width1 := l.width, width := |l.sty - l.stx| } else l
  let l := if l.brackt then { l with stmin := min l.stx l.sty, stmax := max l.stx l.sty }
    else { l with stmin := stp + (stp - l.stx) * 1.1, stmax := stp + (stp - l.stx) * 4 }
  let stp := max stp P.stpmin
  let stp := min stp P.stpmax
  let stp := if (l.brackt = true ∧ (stp ≤ l.stmin ∨ stp ≥ l.stmax)) ∨ (l.brackt = true ∧ l.stmax - l.stmin ≤ P.xtol * l.stmax) then l.stx
    else stp
  (l, stp)

open Classical in
/-- `dcsrch`, minpack2-linmin.c:117-459.  Result: task, step and work arrays. -/
noncomputable def dcsrch (P : Par) (task : Task) (stp f g : ℝ) (w : Saved) : Option (Task × ℝ × Saved) :=
  if task = .start then
    let t := checkStart P stp g
    if t.isError then some (t, stp, w) else some (.fg, stp, save (initLocal P stp f g) w)
  else
    let l := restore w
    let ftest := l.finit + stp * l.gtest
    let l := { l with stage := if l.stage = 1 ∧ f ≤ ftest ∧ g ≥ 0 then 2 else l.stage }
    let t := testTask P l stp f g
    if t.isWarn = true ∨ t = .conv then some (t, stp, save l w)
    else do
      let r ← stepCall l stp f g
      let r := finish P r.1 r.2
      some (.fg, r.2, save r.1 w)

/-- The result of a line minimisation. -/
inductive Out where
  /-- still running after the given number of evaluations -/
  | running
  /-- a NaN was computed -/
  | nan
  /-- `CHECK(*task != 'E', "linmin failure")` -/
  | failure
  /-- returned step, value, derivative and final message -/
  | done (x fx dfx : ℝ) (t : Task)

/-- The loop of `linmin`, linmin.c:87-100; `φ x` is the value and derivative of the function.  `n` bounds the number of evaluations. -/
noncomputable def loop (P : Par) (φ : ℝ → ℝ × ℝ) : ℕ → ℝ → ℝ → ℝ → Task → Saved → Out
  | 0, _, _, _, _, _ => .running
  | n + 1, x, fx, dfx, t, w =>
    if t = .fg then
      match dcsrch P t x (φ x).1 (φ x).2 w with
      | none => .nan
      | some (t', x', w') => loop P φ n x' (φ x).1 (φ x).2 t' w'
    else if t.isError then .failure
    else .done x fx dfx t

/-- The last branch of `linmin`, linmin.c:76-108 (`df_0 < 0`). -/
noncomputable def linminDown (P : Par) (φ : ℝ → ℝ × ℝ) (n : ℕ) (xGuess f0 df0 : ℝ) (w : Saved) : Out :=
  match dcsrch P .start xGuess f0 df0 w with
  | none => .nan
  | some (t, x, w') => loop P φ n x f0 df0 t w'

/-- `reverse_func`, linmin.c:45-52. -/
def reverse (φ : ℝ → ℝ × ℝ) (x : ℝ) : ℝ × ℝ := ((φ (-x)).1, -(φ (-x)).2)

open Classical in
/-- `linmin`, linmin.c:54-109.  (In the recursive call `df_0 < 0`, so the recursion has depth one.) -/
noncomputable def linmin (P : Par) (φ : ℝ → ℝ × ℝ) (n : ℕ) (xGuess f0 df0 : ℝ) (w : Saved) : Out :=
  if df0 > 0 then
    match linminDown { P with stpmin := -P.stpmin, stpmax := -P.stpmax } (reverse φ) n (-xGuess) f0 (-df0) w with
    | .done x fx dfx t => .done (-x) fx (-dfx) t
    | o => o
  else if df0 = 0 then .done 0 f0 df0 .conv
  else linminDown P φ n xGuess f0 df0 w

open Classical in
/-- The trial angle passed to `linmin`, eigensolver.c:697-719.  With `d2E = 0` the quotient `-dE/d2E` is infinite, so that the last test
replaces it; it is NaN if also `dE = 0`, but then `linmin` returns without using it (linmin.c:71-75). -/
noncomputable def thetaGuess (dE d2E prevTheta : ℝ) : ℝ :=
  let alt := if dE > 0 then -|prevTheta| else |prevTheta|
  let theta := if d2E < 0 ∨ d2E = 0 then alt else -dE / d2E
  if |theta| ≥ Real.pi then alt else theta

end Mpb.Linmin

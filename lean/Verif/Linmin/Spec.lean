import Verif.Linmin.Model

/-!
# Specification of the line search

Stated without reference to the model's formulas.
-/

namespace Mpb.Linmin.Spec

open Mpb.Linmin

/-- `x` lies in the closed interval with endpoints `a` and `b`, in either order. -/
def Between (a b x : ℝ) : Prop := min a b ≤ x ∧ x ≤ max a b

/-- `x` lies strictly between `a` and `b`. -/
def StrictlyBetween (a b x : ℝ) : Prop := min a b < x ∧ x < max a b

/-- The documented precondition of `dcstep` (minpack2-linmin.c:477-498): the derivative at the best step is negative in the direction of
the trial step, and if a minimiser has been bracketed the trial step is strictly inside the bracket, which lies inside the limits, and
the best step has the smaller function value. -/
structure DocPre (s : Step) (stpmin stpmax : ℝ) : Prop where
  downhill : s.dx * (s.stp - s.stx) < 0
  limits : stpmin ≤ stpmax
  inside : s.brackt = true → StrictlyBetween s.stx s.sty s.stp
  lower : s.brackt = true → s.fx ≤ s.fy
  in_limits : s.brackt = true → stpmin ≤ s.stp ∧ s.stp ≤ stpmax

/-- What `START` requires of its arguments (minpack2-linmin.c:186-256). -/
structure ValidStart (P : Par) (stp g : ℝ) : Prop where
  stp_ge : P.stpmin ≤ stp
  stp_le : stp ≤ P.stpmax
  descent : g < 0
  ftol : 0 ≤ P.ftol
  gtol : 0 ≤ P.gtol
  xtol : 0 ≤ P.xtol
  stpmin : 0 ≤ P.stpmin
  stpmax : P.stpmin ≤ P.stpmax

/-- Sufficient decrease and curvature condition at `x`, relative to the value `f0` and slope `g0` at zero. -/
def StrongWolfe (P : Par) (f0 g0 x f g : ℝ) : Prop := f ≤ f0 + x * (P.ftol * g0) ∧ |g| ≤ P.gtol * |g0|

/-- The sequence of calls of the reverse-communication protocol: `Run P φ f0 g0 x0 w0 t x f g w evals` holds if, starting with `START` at
the step `x0` and answering every `FG` with the value and derivative of `φ` at the requested step, the caller can be in the state where
the last call returned task `t`, step `x` and work arrays `w`, the last values passed were `f`, `g`, and `φ` has been evaluated at the
steps `evals` (most recent first). -/
inductive Run (P : Par) (φ : ℝ → ℝ × ℝ) (f0 g0 x0 : ℝ) (w0 : Saved) : Task → ℝ → ℝ → ℝ → Saved → List ℝ → Prop
  | start {t x w} (h : dcsrch P .start x0 f0 g0 w0 = some (t, x, w)) : Run P φ f0 g0 x0 w0 t x f0 g0 w []
  | step {x f g w evals t' x' w'} (hr : Run P φ f0 g0 x0 w0 .fg x f g w evals)
      (h : dcsrch P .fg x (φ x).1 (φ x).2 w = some (t', x', w')) :
      Run P φ f0 g0 x0 w0 t' x' (φ x).1 (φ x).2 w' (x :: evals)

end Mpb.Linmin.Spec

import Verif.Run.Model
import Mathlib.Data.List.Sort

/-! # Model of `display-eigensolver-stats` (mpb/mpb.scm.in:550-575) -/

namespace Mpb.Run

variable {F : Type} [Field F] [LinearOrder F]

/-- The numbers printed. -/
structure Stats (F : Type) where
  runs : ℕ
  least : F
  greatest : F
  mean : F
  median : F
  /-- "mean flops per iteration"; `none` if Guile divides by 0.0 and prints an infinity or "not a number". -/
  flops : Option F
  /-- "mean time per iteration", the same. -/
  time : Option F

/-- Division of inexact numbers. -/
def divide (a b : F) : Option F := if b = 0 then none else some (a / b)

/-- `display-eigensolver-stats`, mpb/mpb.scm.in:554-575, in a Guile with `sort`: `ok none` if nothing is printed, `error` if `list-ref` is out of range.
Simplification: exact arithmetic. -/
def stats (iters : List F) (flops time : F) : Except Unit (Option (Stats F)) :=
  match iters with
  | [] => .ok none
  | x :: xs =>
    let n := (x :: xs).length
    let mean := (x :: xs).foldr (· + ·) 0 / (n : F)
    let sorted := (x :: xs).insertionSort (· ≤ ·)
    match sorted[n / 2]?, sorted[(n + 1) / 2 - 1]? with
    | some a, some b =>
      .ok (some ⟨n, xs.foldl min x, xs.foldl max x, mean, 1 / 2 * (a + b), divide flops ((n : F) * mean), divide time (mean * (n : F))⟩)
    | _, _ => .error ()

end Mpb.Run

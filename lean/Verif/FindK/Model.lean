import Mathlib.Algebra.Order.Field.Basic
import Mathlib.Algebra.Order.Group.Abs
import Mathlib.Data.Rat.Defs
import Mathlib.Algebra.Order.Ring.Rat
import Mathlib.Algebra.Field.Rat
import Mathlib.Logic.Function.Basic

/-!
# Model of `find-k` (mpb.scm.in:850-915)

`κ` is the type of k magnitudes.  The eigensolver and the group velocity are parameters: a run of `run-parity` with
`num-bands = b` at magnitude `k` sets the global `freqs` to the list `fs b k` and `compute-group-velocity-component`
returns `vs b k`.  `find-root-deriv` (libctl) is an arbitrary deterministic strategy that asks for values of the function
and finally returns a root.  Printing is not modelled.
-/

namespace Mpb.FindK

variable {κ F : Type*}

/-- `find-root-deriv` as an arbitrary terminating strategy: it returns, or asks for (value, derivative) at some point. -/
inductive Strat (κ F : Type*) where
  | ret (k : κ)
  | ask (k : κ) (next : F × F → Strat κ F)

/-- `ncdr`, mpb.scm.in:852. -/
def ncdr {α : Type*} : ℕ → List α → List α
  | 0, l => l
  | n + 1, l => ncdr n l.tail

/-- `arith-sequence start 1 n` (libctl). -/
def arithSeq (start : ℕ) : ℕ → List ℕ
  | 0 => []
  | n + 1 => start :: arithSeq (start + 1) n

/-- The variables `k0s`, `bktab`, and the globals `num-bands`, `k-points` (one k magnitude per point). -/
structure St (κ F : Type*) where
  k0s : ℕ → κ
  bktab : List ((ℕ × κ) × (F × F))
  numBands : ℕ
  kPoints : List κ

variable [DecidableEq κ] [Field F] [LinearOrder F]

/-- The body of the caching `map`, mpb.scm.in:874-881: `k0s` is indexed by `b - band-min`. -/
def cacheOne (omega : F) (bmin : ℕ) (k : κ) (st : St κ F) (e : ℕ × F × F) : St κ F :=
  let b := e.1
  let f := e.2.1
  let v := e.2.2
  let tabval := st.bktab.lookup (b, st.k0s (b - bmin))
  let upd : Bool := match tabval with
    | none => true
    | some tv => decide (|f - omega| < |tv.1|)
  { st with
    k0s := if upd then Function.update st.k0s (b - bmin) k else st.k0s
    bktab := ((b, k), (f - omega, v)) :: st.bktab }

/-- Three-list `map`: stops with the shortest list. -/
def zip3 {α β γ : Type*} : List α → List β → List γ → List (α × β × γ)
  | a :: as, b :: bs, c :: cs => (a, b, c) :: zip3 as bs cs
  | _, _, _ => []

/-- `rootfun`, mpb.scm.in:862-889.  `none` when `(car (reverse freqs))` fails on an empty list. -/
def rootfun (fs vs : ℕ → κ → List F) (omega : F) (bmin b : ℕ) (k : κ) (st : St κ F) : Option ((F × F) × St κ F) :=
  match st.bktab.lookup (b, k) with
  | some tv => some (tv, st)
  | none =>
    let st := { st with numBands := b, kPoints := [k] }
    let freqs := fs b k
    let v := vs b k
    let st := (zip3 (arithSeq bmin (b + 1 - bmin)) (ncdr (bmin - 1) freqs) (ncdr (bmin - 1) v)).foldl
      (cacheOne omega bmin k) st
    match freqs.reverse.head?, v.reverse.head? with
    | some f, some v => some ((f - omega, v), st)
    | _, _ => none

/-- Running the root finder with `(rootfun b)`. -/
def runStrat (fs vs : ℕ → κ → List F) (omega : F) (bmin b : ℕ) : Strat κ F → St κ F → Option (κ × St κ F)
  | .ret k, st => some (k, st)
  | .ask k next, st =>
    match rootfun fs vs omega bmin b k st with
    | none => none
    | some (fv, st') => runStrat fs vs omega bmin b (next fv) st'

/-- The `map` over the bands `band-max, band-max - 1, ..`, mpb.scm.in:891-895 (before the final `reverse`). `strat b k0`
is `find-root-deriv` started at guess `k0`. -/
def bandLoop (fs vs : ℕ → κ → List F) (omega : F) (bmin : ℕ) (strat : ℕ → κ → Strat κ F) :
    List ℕ → St κ F → Option (List κ × St κ F)
  | [], st => some ([], st)
  | b :: bs, st =>
    match runStrat fs vs omega bmin b (strat b (st.k0s (b - bmin))) st with
    | none => none
    | some (k, st') =>
      match bandLoop fs vs omega bmin strat bs st' with
      | none => none
      | some (ks, st'') => some (k :: ks, st'')

/-- `arith-sequence band-max -1 nb`. -/
def bandsDown (bmin bmax : ℕ) : List ℕ := (arithSeq bmin (bmax + 1 - bmin)).reverse

/-- `find-k`, mpb.scm.in:850-915, without the optional band functions.  Returns the list of k's, and the final globals. -/
def findK (fs vs : ℕ → κ → List F) (omega : F) (bmin bmax : ℕ) (guess : ℕ → κ) (strat : ℕ → κ → Strat κ F)
    (numBands : ℕ) (kPoints : List κ) : Option (List κ × St κ F) :=
  match bandLoop fs vs omega bmin strat (bandsDown bmin bmax) ⟨guess, [], numBands, kPoints⟩ with
  | none => none
  | some (ks, st) => some (ks.reverse, { st with numBands := numBands, kPoints := kPoints })

end Mpb.FindK

import Mathlib.Data.Int.Init
import Mathlib.Algebra.Order.Field.Basic
import Mathlib.Algebra.Order.Floor.Defs
import Mathlib.Data.Nat.Log
import Mathlib.Data.Rat.Floor

/-!
# Model of the Scheme-level helper functions of MPB

Transcribed from `/repo/mpb/mpb.scm.in`.  Scheme lists are Lean lists, exact Scheme integers are `Int`/`Nat`, Scheme
reals are elements of an ordered field (idealisation of floating point).
-/

namespace Mpb.Scheme

/-! ## `list-split` (mpb.scm.in:584-599) -/

/-- `list-sub`, mpb.scm.in:588-593: walk the list with a running index, keep the elements whose index is in
`[start, start+len)` (accumulated in reverse in `rest`). -/
def listSub {α : Type*} : List α → (start len index : Int) → (rest : List α) → List α
  | [], _, _, _, rest => rest.reverse
  | a :: L, start, len, index, rest =>
    if index ≥ start ∧ index < start + len then listSub L start len (index + 1) (a :: rest)
    else listSub L start len (index + 1) rest

/-- `list-split`, mpb.scm.in:587-599.  `quotient` is truncating division (`Int.tdiv`); it is only reached when
`0 ≤ index < num`, hence with a positive divisor. -/
def listSplit {α : Type*} (L : List α) (num index : Int) : Int × List α :=
  if index ≥ num ∨ index < 0 then ((L.length : Int), [])
  else
    let blockSize := Int.tdiv ((L.length : Int) + num + (-1)) num
    let start := index * blockSize
    let len := min blockSize ((L.length : Int) - index * blockSize)
    (start, listSub L start len 0 [])

/-! ## band ranges and gaps (mpb.scm.in:480-546) -/

/-- One entry of `band-range-data`: `((min . k) . (max . k))`; the k-point `-1` of a fresh entry is `none`. -/
structure BandRange (F κ : Type*) where
  min : F
  kmin : Option κ
  max : F
  kmax : Option κ
deriving DecidableEq

/-- The inner loop `ubrd` of `update-band-range-data`, mpb.scm.in:487-499.  `inf` is the Scheme variable `infinity`
(1e20, line 388). -/
def ubrd {F κ : Type*} [LT F] [DecidableLT F] [Neg F] (inf : F) (k : κ) :
    List (BandRange F κ) → List F → List (BandRange F κ) → List (BandRange F κ)
  | brd, [], brStart => brStart.reverse ++ brd
  | brd, f :: fs, brStart =>
    let br : BandRange F κ := match brd with
      | [] => { min := inf, kmin := none, max := -inf, kmax := none }
      | b :: _ => b
    let brRest : List (BandRange F κ) := match brd with
      | [] => []
      | _ :: r => r
    let newmin := if f < br.min then (f, some k) else (br.min, br.kmin)
    let newmax := if br.max < f then (f, some k) else (br.max, br.kmax)
    ubrd inf k brRest fs ({ min := newmin.1, kmin := newmin.2, max := newmax.1, kmax := newmax.2 } :: brStart)

/-- `update-band-range-data`, mpb.scm.in:486-500. -/
def updateBandRangeData {F κ : Type*} [LT F] [DecidableLT F] [Neg F] (inf : F)
    (brd : List (BandRange F κ)) (freqs : List F) (k : κ) : List (BandRange F κ) :=
  ubrd inf k brd freqs []

/-- The sequence of updates performed by `run-parity`, mpb.scm.in:618 and 631-646: start from the empty list, update once
per solved k-point. -/
def runBandRanges {F κ : Type*} [LT F] [DecidableLT F] [Neg F] (inf : F)
    (table : List (List F × κ)) : List (BandRange F κ) :=
  table.foldl (fun brd row => updateBandRangeData inf brd row.1 row.2) []

/-- The inner loop `ogaps` of `output-gaps`, mpb.scm.in:515-526 (printing omitted; the band counter `i` is only printed
and is kept as a component of the result so that it can be talked about). -/
def ogaps {F κ : Type*} [Field F] [LinearOrder F] :
    BandRange F κ → List (BandRange F κ) → Nat → List (Nat × F × F × F) → List (Nat × F × F × F)
  | _, [], _, gaps => gaps.reverse
  | cur, nxt :: rest, i, gaps =>
    if nxt.min ≤ cur.max then ogaps nxt rest (i + 1) gaps
    else ogaps nxt rest (i + 1)
      ((i, (200 * (nxt.min - cur.max)) / (nxt.min + cur.max), cur.max, nxt.min) :: gaps)

/-- `output-gaps`, mpb.scm.in:514-529. -/
def outputGaps {F κ : Type*} [Field F] [LinearOrder F] :
    List (BandRange F κ) → List (Nat × F × F × F)
  | [] => []
  | b :: bs => ogaps b bs 1 []

/-- `retrieve-gap`, mpb.scm.in:541-546; `none` is the Scheme error (also for `lower-band < 1`, where `list-ref` fails). -/
def retrieveGap {F κ : Type*} [Field F] (brd : List (BandRange F κ)) (lowerBand : Nat) : Option F :=
  if lowerBand + 1 > brd.length then none
  else if lowerBand = 0 then none
  else match brd[lowerBand - 1]?, brd[lowerBand]? with
    | some b1, some b2 => some ((b2.min - b1.max) / ((5 / 1000) * (b1.max + b2.min)))
    | _, _ => none

/-! ## `next-factor2357` (mpb.scm.in:934-942) -/

/-- `divby`, mpb.scm.in:937-940.  For `N = 0` (or `p < 2`) the Scheme loop never terminates: `none`. -/
def divby (N p : Nat) : Option Nat :=
  if N = 0 ∨ p < 2 then none
  else if N % p = 0 then divby (N / p) p
  else some N
termination_by N
decreasing_by
  exact Nat.div_lt_self (by omega) (by omega)

/-- `factor2357?`, mpb.scm.in:936-941. -/
def factor2357 (N : Nat) : Option Bool := do
  let a ← divby N 2
  let b ← divby a 3
  let c ← divby b 5
  let d ← divby c 7
  return d == 1

/-- `next-factor2357`, mpb.scm.in:935-942, with `fuel` recursive calls allowed; `none` means "still running" (or the
non-termination of `divby`). -/
def nextFactor2357 : (fuel : Nat) → Nat → Option Nat
  | 0, _ => none
  | fuel + 1, N => do
    if ← factor2357 N then return N else nextFactor2357 fuel (N + 1)

/-- `vector-map next-factor2357` over the three sizes, mpb.scm.in:947, each search with `fuel` recursive calls allowed. -/
def factorVec (fuel : Nat) (v : Nat × Nat × Nat) : Option (Nat × Nat × Nat) := do
  let x ← nextFactor2357 fuel v.1
  let y ← nextFactor2357 fuel v.2.1
  let z ← nextFactor2357 fuel v.2.2
  return (x, y, z)

/-- `optimize-grid-size!`, mpb.scm.in:944-947: the value of the variable `grid-size` after the call.  `getGridSize` is
libctl's `get-grid-size` as a function of the variable `grid-size` (`none` is Scheme's `false`); `old` is the value of
the variable before the call, which the first `set!` discards. -/
def optimizeGridSize (fuel : Nat) (getGridSize : Option (Nat × Nat × Nat) → Nat × Nat × Nat)
    (old : Option (Nat × Nat × Nat)) : Option (Nat × Nat × Nat) :=
  let cleared : Option (Nat × Nat × Nat) := old.filter fun _ => false
  factorVec fuel (getGridSize cleared)

end Mpb.Scheme

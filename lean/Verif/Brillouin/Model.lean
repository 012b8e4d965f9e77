import Verif.Core.Vec
import Mathlib.Algebra.Order.Floor.Defs
import Mathlib.Algebra.Order.Field.Basic
import Mathlib.Data.Int.Cast.Lemmas
import Mathlib.Data.Rat.Floor

/-!
# Model of `first-brillouin-zone` (mpb.scm.in:406-427)

k-points are vectors in the reciprocal basis; `B` is the matrix used by `reciprocal->cartesian`.  The Scheme code compares
Euclidean norms; the model compares squared norms (same order, no square root needed).  The recursions of the Scheme code
are unbounded, so the model takes fuel (`m` for the inner loop `try+`, `n` for the outer loop `try-all&repeat`); `none`
means that the fuel ran out.
-/

namespace Mpb.Brillouin

variable {F : Type*} [Field F] [LinearOrder F] [IsStrictOrderedRing F] [FloorRing F]

/-- Square of the local function `n`, mpb.scm.in:409. -/
def n2 (B : M3 F) (k : V3 F) : F := V3.dot (B.mulVec k) (B.mulVec k)

/-- `try+`, mpb.scm.in:410-411: keep adding `v` while the norm decreases. -/
def tryPlus (B : M3 F) : (m : ℕ) → V3 F → V3 F → Option (V3 F)
  | 0, _, _ => none
  | m + 1, k, v => if n2 B (k + v) < n2 B k then tryPlus B m (k + v) v else some k

/-- `try`, mpb.scm.in:412. -/
def try' (B : M3 F) (m : ℕ) (k v : V3 F) : Option (V3 F) := do
  let k1 ← tryPlus B m k v
  tryPlus B m k1 (0 - v)

/-- `trylist`, mpb.scm.in:413-419. -/
def tryList : List (V3 F) :=
  [⟨1, 0, 0⟩, ⟨0, 1, 0⟩, ⟨0, 0, 1⟩,
   ⟨0, 1, 1⟩, ⟨1, 0, 1⟩, ⟨1, 1, 0⟩,
   ⟨0, 1, -1⟩, ⟨1, 0, -1⟩, ⟨1, -1, 0⟩,
   ⟨1, 1, 1⟩,
   ⟨-1, 1, 1⟩, ⟨1, -1, 1⟩, ⟨1, 1, -1⟩]

/-- `fold-left try`, over an explicit list of vectors. -/
def tryFold (B : M3 F) (m : ℕ) : List (V3 F) → V3 F → Option (V3 F)
  | [], k => some k
  | v :: vs, k => do
    let k' ← try' B m k v
    tryFold B m vs k'

/-- `try-all`, mpb.scm.in:420-422. -/
def tryAll (B : M3 F) (m : ℕ) (k : V3 F) : Option (V3 F) := tryFold B m tryList k

/-- `try-all&repeat`, mpb.scm.in:423-425. -/
def tryAllRepeat (B : M3 F) (m : ℕ) : (n : ℕ) → V3 F → Option (V3 F)
  | 0, _ => none
  | n + 1, k => do
    let knew ← tryAll B m k
    if n2 B knew < n2 B k then tryAllRepeat B m n knew else some k

/-- Scheme's `round`: to the nearest integer, ties to even. -/
def schemeRound (x : F) : ℤ :=
  let r := ⌊x + 1 / 2⌋
  if (r : F) = x + 1 / 2 ∧ r % 2 = 1 then r - 1 else r

/-- `first-brillouin-zone`, mpb.scm.in:408, 426-427. -/
def firstBZ (B : M3 F) (m n : ℕ) (k : V3 F) : Option (V3 F) :=
  let k0 := k - ⟨(schemeRound k.x : F), (schemeRound k.y : F), (schemeRound k.z : F)⟩
  if n2 B k0 < n2 B k then tryAllRepeat B m n k0 else tryAllRepeat B m n k

end Mpb.Brillouin

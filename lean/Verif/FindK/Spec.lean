import Verif.FindK.Model

namespace Mpb.FindK.Spec
variable {κ F : Type*} [DecidableEq κ] [Field F] [LinearOrder F]

/-- The exact frequencies and velocities: `f b k`, `v b k` for band `b = 1, 2, …` at `k`.  A run with `n` bands reports
the first `n` of them. -/
structure Oracle (f v : ℕ → κ → F) (fs vs : ℕ → κ → List F) : Prop where
  freqs : ∀ n k, fs n k = (List.range n).map (fun i => f (i + 1) k)
  vels : ∀ n k, vs n k = (List.range n).map (fun i => v (i + 1) k)

/-- Running a root finder with no cache at all: every question is answered by a fresh computation for that band. -/
def runFresh (f v : ℕ → κ → F) (omega : F) (b : ℕ) : Strat κ F → κ
  | .ret k => k
  | .ask k next => runFresh f v omega b (next (f b k - omega, v b k))

/-- The points asked for by a root finder run without cache. -/
def asked (f v : ℕ → κ → F) (omega : F) (b : ℕ) : Strat κ F → List κ
  | .ret _ => []
  | .ask k next => k :: asked f v omega b (next (f b k - omega, v b k))

/-- `k` is a best guess for band `b` among the points `ks`: one of them, with the smallest `|f - omega|`. -/
def BestAmong (f : ℕ → κ → F) (omega : F) (b : ℕ) (ks : List κ) (k : κ) : Prop :=
  k ∈ ks ∧ ∀ k' ∈ ks, |f b k - omega| ≤ |f b k' - omega|

/-- The starting guess used for band `b` when the points `pts` have been evaluated before: the user's guess if there are
none, otherwise a best point evaluated so far. -/
def GuessOK (f : ℕ → κ → F) (omega : F) (guess : κ) (b : ℕ) (pts : List κ) (g : κ) : Prop :=
  (pts = [] ∧ g = guess) ∨ BestAmong f omega b pts g

/-- The cache-free meaning of the band loop: bands are treated in the order of the list; each band's result is the root
found, by fresh computations only, from a starting guess that is best among *all* points asked for so far. -/
inductive Results (f v : ℕ → κ → F) (omega : F) (guess : ℕ → κ) (strat : ℕ → κ → Strat κ F) :
    List ℕ → List κ → List κ → Prop
  | nil (pts : List κ) : Results f v omega guess strat [] pts []
  | cons (b : ℕ) (bs : List ℕ) (pts : List κ) (g : κ) (ks : List κ) :
      GuessOK f omega (guess b) b pts g →
      Results f v omega guess strat bs (asked f v omega b (strat b g) ++ pts) ks →
      Results f v omega guess strat (b :: bs) pts (runFresh f v omega b (strat b g) :: ks)

end Mpb.FindK.Spec

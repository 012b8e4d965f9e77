import Verif.Run.Model

/-!
# What a run should do (specification of C92)
-/

namespace Mpb.Run.Spec

open Mpb.Scheme

variable {K E F X V : Type}

/-- What is seen of an event if only `v` of the eigenvectors is looked at. -/
def view (v : E → V) : Ev K E F → Ev K V F
  | .epsilon => .epsilon
  | .mu => .mu
  | .solve k i fr e => .solve k i fr (v e)
  | .call id b k i fr e => .call id b k i fr (v e)

/-- A solved k-point: its index, frequencies and eigenvectors. -/
structure Sol (K V F : Type) where
  k : K
  index : ℤ
  freqs : List F
  eig : V

/-- The calls of user's functions `ps` at a solved k-point: each function in turn, a function with an argument for the bands
1, ..., `n`, a function without once; each finds the k-point, index, frequencies and eigenvectors just computed. -/
def calls (n : ℕ) (ps : List (Prim K E F X)) (x : Sol K V F) : List (Ev K V F) :=
  ps.flatMap fun p => if p.thunk then [.call p.id none x.k x.index x.freqs x.eig]
    else (List.range n).map fun b => .call p.id (some (b + 1)) x.k x.index x.freqs x.eig

/-- The function leaves (what `v` sees of) the eigenvectors alone. -/
def Leaves (v : E → V) (p : Prim K E F X) : Prop := ∀ b s, v (p.act b s).1 = v s.eig

/-- The run from `s` to `s'` solved the k-points of its share and made the calls `W` at each. -/
structure Ran [Field F] [LinearOrder F] (env : Env K E F X) (v : E → V) (W : Sol K V F → List (Ev K V F)) (s s' : St K E F X)
    (xs : List (Sol K V F)) : Prop where
  /-- each k-point of the share once, in order -/
  points : xs.map (·.k) = (listSplit env.kPoints env.splitNum env.splitIndex).2
  /-- numbered as in the whole list, from 1 -/
  index : ∀ (j : ℕ) x, xs[j]? = some x → x.index = (listSplit env.kPoints env.splitNum env.splitIndex).1 + j + 1
  /-- each solution is what the solver returns for this k-point -/
  solved : ∀ x ∈ xs, ∃ e y, v (env.solver env.numBands x.k e y).1 = x.eig ∧ (env.solver env.numBands x.k e y).2.1 = x.freqs
  /-- first the material functions are written, in the first job; then for each k-point it is solved and the calls are made -/
  log : s'.log.map (view v) = s.log.map (view v) ++
    (if (listSplit env.kPoints env.splitNum env.splitIndex).1 = 0 then .epsilon :: (if env.usingMu then [.mu] else []) else []) ++
    xs.flatMap fun x => .solve x.k x.index x.freqs x.eig :: W x
  /-- `all-freqs` -/
  freqs : s'.allFreqs = xs.map (·.freqs)
  /-- `band-range-data` and `gap-list` -/
  ranges : s'.ranges = runBandRanges env.inf (xs.map fun x => (x.freqs, x.k))
  gaps : s'.gaps = if 2 ≤ xs.length then outputGaps s'.ranges else []

/-- The eigenvectors the first k-point starts from. -/
def start (env : Env K E F X) (p : ℤ) (reset : Reset) (s : St K E F X) : E :=
  match reset with
  | .no => (env.initParams p false s.eig s.rest).1
  | .yes => (env.initParams p true s.eig s.rest).1
  | .file name => (env.loadEig name (env.initParams p true s.eig s.rest).1 (env.initParams p true s.eig s.rest).2).1

/-- A material function was written. -/
def isMaterial : Ev K E F → Bool
  | .epsilon => true
  | .mu => true
  | _ => false

/-- How often `randomize-fields` is in a list of band functions. -/
def randomizings : List (Entry K E F X) → ℕ
  | [] => 0
  | .randomize :: l => randomizings l + 1
  | .fn _ :: l => randomizings l

end Mpb.Run.Spec

import Verif.Scheme.Model

/-!
# Model of the run functions and the band functions (mpb/mpb.scm.in:603-691, 788-831, 898-907, mpb/mpb-split-preinstall.in)

`K`: k-points; `E`: the contents of the array of eigenvectors; `X`: everything else the C program keeps (current field, files, random
numbers); `F`: frequencies.  What the C functions compute is arbitrary (parameters of `Env`).  A band function is an arbitrary function on
the state; assumed: it does not assign the variables of `run-parity` itself (in particular it does not call a run function), so `num-bands`,
`k-points` and the like are constant during a run.  `map` works from left to right, as it does in Guile.  Timing is left out.
-/

namespace Mpb.Run

open Mpb.Scheme

/-- The input variables and the C functions. -/
structure Env (K E F X : Type) where
  /-- `num-bands` -/
  numBands : ℕ
  /-- `k-points` -/
  kPoints : List K
  /-- `k-split-num` -/
  splitNum : ℤ
  /-- `k-split-index` -/
  splitIndex : ℤ
  /-- `randomize-fields?` -/
  always : Bool
  /-- `infinity` -/
  inf : F
  /-- `init-params`: parity and whether to randomise. -/
  initParams : ℤ → Bool → E → X → E × X
  /-- `load-eigenvectors` -/
  loadEig : String → E → X → E × X
  /-- `(using-mu?)` -/
  usingMu : Bool
  /-- `output-epsilon`, `output-mu` -/
  outEps : X → X
  outMu : X → X
  /-- `randomize-fields` -/
  random : E → X → E × X
  /-- `solve-kpoint`: for the number of bands, the k-point and the fields present: the new fields, the frequencies, the number of
  iterations. -/
  solver : ℕ → K → E → X → E × List F × ℕ × X

/-- What happens, in order: output of the dielectric function and of mu; the solution of a k-point, with its index and what is then in
`freqs` and in the array of eigenvectors; the call of a user's function `id` for a band (none: it has no argument), with `current-k`,
`(get-kpoint-index)`, `freqs` and the array of eigenvectors it finds. -/
inductive Ev (K E F : Type)
  | epsilon
  | mu
  | solve (k : K) (index : ℤ) (freqs : List F) (eig : E)
  | call (id : ℕ) (band : Option ℕ) (k : K) (index : ℤ) (freqs : List F) (eig : E)

/-- The state: of the C program, and the variables of `run-parity`. -/
structure St (K E F X : Type) where
  eig : E
  rest : X
  freqs : List F
  iterations : ℕ
  index : ℤ
  currentK : K
  allFreqs : List (List F)
  ranges : List (BandRange F K)
  gaps : List (ℕ × F × F × F)
  iters : List F
  log : List (Ev K E F)

variable {K E F X : Type}

/-- A band function: without argument ("thunk"), or with the band as argument; told apart by `procedure-num-args`, mpb.scm.in:25-29. -/
inductive BandFn (K E F X : Type)
  | thunk (f : St K E F X → St K E F X)
  | band (f : ℕ → St K E F X → St K E F X)

/-- An argument of a run function: `randomize-fields` itself (which `member` recognises), or another function. -/
inductive Entry (K E F X : Type)
  | randomize
  | fn (f : BandFn K E F X)

def Entry.isRandomize : Entry K E F X → Bool
  | .randomize => true
  | .fn _ => false

/-- A function written by the user: it may look at everything and change the eigenvectors and the rest of the C state. -/
structure Prim (K E F X : Type) where
  id : ℕ
  thunk : Bool
  act : Option ℕ → St K E F X → E × X

/-- The call of a user's function. -/
def Prim.call (p : Prim K E F X) (b : Option ℕ) (s : St K E F X) : St K E F X :=
  { s with eig := (p.act b s).1, rest := (p.act b s).2, log := s.log ++ [.call p.id b s.currentK s.index s.freqs s.eig] }

def Prim.fn (p : Prim K E F X) : BandFn K E F X := if p.thunk then .thunk (p.call none) else .band fun b => p.call (some b)

/-- `randomize-fields`. -/
def randomizeFields (env : Env K E F X) (s : St K E F X) : St K E F X :=
  { s with eig := (env.random s.eig s.rest).1, rest := (env.random s.eig s.rest).2 }

/-- mpb.scm.in:644-649: one band function at one k-point: a thunk once, another one for the bands 1, ..., `num-bands`. -/
def callEntry (env : Env K E F X) (s : St K E F X) : Entry K E F X → St K E F X
  | .randomize => randomizeFields env s
  | .fn (.thunk f) => f s
  | .fn (.band f) => (List.range env.numBands).foldl (fun s b => f (b + 1) s) s

/-- `solve-kpoint`, mpb/mpb.c:586-842: it sets `freqs` and `iterations`, and increases `kpoint_index` (mpb/mpb.c:826). -/
def solveKpoint (env : Env K E F X) (k : K) (s : St K E F X) : St K E F X :=
  let r := env.solver env.numBands k s.eig s.rest
  { s with eig := r.1, freqs := r.2.1, iterations := r.2.2.1, rest := r.2.2.2, index := s.index + 1,
           log := s.log ++ [.solve k (s.index + 1) r.2.1 r.1] }

variable [Field F] [LinearOrder F]

/-- mpb.scm.in:634-641: solve one k-point and update the lists. -/
def solveStep (env : Env K E F X) (k : K) (s : St K E F X) : St K E F X :=
  let s := solveKpoint env k { s with currentK := k }
  { s with allFreqs := s.freqs :: s.allFreqs, ranges := updateBandRangeData env.inf s.ranges s.freqs k,
           iters := s.iters ++ [(s.iterations : F) / env.numBands] }

/-- mpb.scm.in:633-650: the body of the loop over the k-points. -/
def kStep (env : Env K E F X) (fs : List (Entry K E F X)) (s : St K E F X) (k : K) : St K E F X :=
  fs.foldl (callEntry env) (solveStep env k s)

/-- `reset-fields`: false, true or a file name. -/
inductive Reset
  | no
  | yes
  | file (name : String)

def Reset.isTrue : Reset → Bool
  | .no => false
  | _ => true

/-- mpb.scm.in:616-623: up to the initialisation.  `init-params` resets `kpoint_index` (mpb/mpb.c:368). -/
def runInit (env : Env K E F X) (p : ℤ) (reset : Reset) (s : St K E F X) : St K E F X :=
  let r := env.initParams p reset.isTrue s.eig s.rest
  let s := { s with allFreqs := [], ranges := [], eig := r.1, rest := r.2, index := 0 }
  match reset with
  | .file name => { s with eig := (env.loadEig name s.eig s.rest).1, rest := (env.loadEig name s.eig s.rest).2 }
  | _ => s

/-- mpb.scm.in:625-629: the first job writes epsilon, and mu if there is one. -/
def outputMaterials (env : Env K E F X) (s : St K E F X) : St K E F X :=
  let s := { s with rest := env.outEps s.rest, log := s.log ++ [.epsilon] }
  if env.usingMu then { s with rest := env.outMu s.rest, log := s.log ++ [.mu] } else s

/-- mpb.scm.in:612-614: `randomize-fields` is added as a band function. -/
def entries (env : Env K E F X) (fs : List (Entry K E F X)) : List (Entry K E F X) :=
  if env.always && !(fs.any Entry.isRandomize) then .randomize :: fs else fs

/-- `run-parity`, mpb.scm.in:611-658. -/
def runParity (env : Env K E F X) (p : ℤ) (reset : Reset) (fs : List (Entry K E F X)) (s : St K E F X) : St K E F X :=
  let fs := entries env fs
  let s := runInit env p reset s
  let split := listSplit env.kPoints env.splitNum env.splitIndex
  let s := { s with index := split.1 }
  let s := if split.1 = 0 then outputMaterials env s else s
  let s := if 0 < env.numBands then
      let s := split.2.foldl (kStep env fs) s
      { s with gaps := if 1 < split.2.length then outputGaps s.ranges else [] }
    else s
  { s with allFreqs := s.allFreqs.reverse }

/-! ## Band functions made of others -/

omit [Field F] [LinearOrder F]

/-- `apply-band-func-thunk`, mpb.scm.in:791-794. -/
def applyBandFuncThunk (f : BandFn K E F X) (b : ℕ) (evalThunk : Bool) (s : St K E F X) : St K E F X :=
  match f with
  | .thunk g => if evalThunk then g s else s
  | .band g => g b s

/-- `apply-band-func`, mpb.scm.in:795-796. -/
def applyBandFunc (f : BandFn K E F X) (b : ℕ) (s : St K E F X) : St K E F X := applyBandFuncThunk f b (b == 1) s

/-- `combine-band-functions`, mpb.scm.in:815-817. -/
def combine (fs : List (BandFn K E F X)) : BandFn K E F X := .band fun b s => fs.foldl (fun s f => applyBandFunc f b s) s

/-- `output-at-kpoint`, mpb.scm.in:820-824; `close`: `vector3-close?` with a tolerance of 1e-8 times the length of the second. -/
def atKpoint (close : K → K → Bool) (k : K) (fs : List (BandFn K E F X)) : BandFn K E F X :=
  .band fun b s => if close s.currentK k then
    match combine fs with
    | .band f => f b s
    | .thunk f => f s
  else s

/-- `output-dpwr-in-objects`, mpb.scm.in:803-812; `energy`: the fraction of the D energy of a band in the objects, a function of the
eigenvectors; `load`: what loading the field changes otherwise. -/
def dpwrInObjects [LE F] [DecidableLE F] (energy : ℕ → E → F) (load : ℕ → E → X → X) (f : BandFn K E F X) (minEnergy : F) : BandFn K E F X :=
  .band fun b s =>
    let s := { s with rest := load b s.eig s.rest }
    if minEnergy ≤ energy b s.eig then applyBandFunc f b s else s

variable [Field F] [LinearOrder F]

/-- The band functions of `find-k`, mpb.scm.in:896-907: for the bands from the highest, with the k-points found, a run with that many bands
whose only band function calls the given ones for that band.  `run-parity` is given `false`. -/
def findKFuncs (env : Env K E F X) (p : ℤ) (fs : List (BandFn K E F X)) (bks : List (ℕ × K)) (s : St K E F X) : St K E F X :=
  bks.foldl (fun s bk => runParity { env with numBands := bk.1, kPoints := [bk.2] } p .no
    [.fn (.band fun b s => if b = bk.1 then fs.foldl (fun s f => applyBandFuncThunk f bk.1 true s) s else s)] s) s

/-! ## `mpb-split` -/

omit [Field F] [LinearOrder F]

/-- mpb/mpb-split-preinstall.in:17-24: the values of `k-split-index` of the processes started, the first one writing to the standard output,
the others to files numbered by the index. -/
def launched (n : ℕ) : ℕ × List ℕ := (0, List.range n)

/-- mpb/mpb-split-preinstall.in:26-33: what is printed: the output of the first process, then the files in order.  `out i`: the output of a
process with `k-split-index` `i`; a file that no process wrote is missing. -/
def printed {α : Type*} (n : ℕ) (out : ℕ → List α) : List α :=
  out (launched n).1 ++ (List.range n).flatMap fun i => if i ∈ (launched n).2 then out i else []

end Mpb.Run

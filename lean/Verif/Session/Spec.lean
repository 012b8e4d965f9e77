import Verif.Session.Model

/-!
# Specification for property C44: what the field commands should do

The user thinks of one current field, a typed object.  A command that needs a field of some kind either gets the current field of
that kind or reports an error and changes nothing.  No type characters, buffers, pointers or band registers occur here, apart
from the characters that are part of output file names and messages.
-/

namespace Mpb.Session

/-- A field as the user sees it. -/
inductive Fld
  /-- D, H or B of a band of solution number `s` -/
  | mode (c : Char) (band : ℕ) (s : ℕ)
  /-- a stored field given to field-load -/
  | user (c : Char) (n : ℕ)
  | eps | mu
  /-- E computed from D -/
  | E (f : Fld)
  /-- energy density of D, H or B -/
  | energy (f : Fld)
  /-- squared amplitude -/
  | sq (f : Fld)
  | div (f : Fld)
  /-- the field with the phase fixed -/
  | fixed (f : Fld)
  /-- the field declared not to be a Bloch field -/
  | nonBloch (f : Fld)
  deriving DecidableEq, Repr

/-- The letter of a field in file names and messages (documentation of output-field). -/
def Fld.letter : Fld → Char
  | .mode c _ _ => c
  | .user c _ => c
  | .eps => 'n'
  | .mu => 'm'
  | .E _ => 'e'
  | .energy f => f.letter.toUpper
  | .sq _ => 'R'
  | .div _ => 'C'
  | .fixed f => f.letter
  | .nonBloch _ => 'v'

/-- The band a field belongs to, if it is known. -/
def Fld.band : Fld → Option ℕ
  | .mode _ b _ => some b
  | .user _ _ => none
  | .eps => none
  | .mu => none
  | .E f => f.band
  | .energy f => f.band
  | .sq f => f.band
  | .div f => f.band
  | .fixed f => f.band
  | .nonBloch f => f.band

/-- The numbers a field stands for: the energy density of D is weighted with ε⁻¹, that of B with μ⁻¹ if there is a permeability. -/
def Fld.data (withMu : Bool) : Fld → Data
  | .mode c b s => .mode c b s
  | .user c n => .user c n
  | .eps => .eps
  | .mu => .mu
  | .E f => .eOf (f.data withMu)
  | .energy f =>
    .dens (if f.letter = 'd' then .epsInv else if f.letter = 'b' ∧ withMu = true then .muInv else .one) (f.data withMu)
  | .sq f => .dens .one (f.data withMu)
  | .div f => .div (f.data withMu)
  | .fixed f => .phased (f.data withMu)
  | .nonBloch f => f.data withMu

/-- The state as the user sees it: the number of bands and whether there is a permeability since the last init-params; the k-point index;
whether init-params has been followed by solve-kpoint. -/
structure Spec where
  sys : Option Mdata := none
  nb : ℕ := 1
  k : ℤ := 0
  solved : Bool := false
  nsol : ℕ := 0
  loaded : Option Fld := none
  deriving DecidableEq, Repr

/-- A command on the current field, which must have one of the given letters. -/
def Spec.onField (s : Spec) (cs : List Char) (f : Fld → Spec × Resp) : Spec × Resp :=
  match s.loaded with
  | none => (s, .err)
  | some x => if x.letter ∈ cs then f x else (s, .err)

/-- The fields a reading command takes: energies take energy densities and squared fields, not ε or μ; field values any vector field; complex
values a complex scalar; integrals any vector field, energy density or squared field; overlaps D or B. -/
def accepted (r : Reader) : List Char :=
  if r = .energy then ['D', 'H', 'B', 'R'] else if r = .cscalar then ['C'] else if r = .overlap then ['d', 'b']
  else if r = .vector then ['d', 'h', 'b', 'e', 'c', 'v'] else ['d', 'h', 'b', 'e', 'D', 'H', 'B', 'R', 'c', 'v']

def Spec.withMu (s : Spec) : Bool := match s.sys with | some m => m.mu | none => false

/-- Loading a field of a band: needs init-params, solve-kpoint and a valid band. -/
def Spec.get (s : Spec) (b : ℤ) (mk : ℕ → ℕ → Fld) : Spec × Resp :=
  match s.sys with
  | none => (s, .err)
  | some m =>
    if s.k ≠ 0 ∧ 1 ≤ b ∧ b ≤ m.p then ({ s with loaded := some (mk b.toNat s.nsol) }, .ok) else (s, .err)

def Spec.step (s : Spec) : Cmd → Spec × Resp
  | .setNumBands n => ({ s with nb := n }, .ok)
  | .init mu => ({ s with sys := some ⟨mu, s.nb⟩, k := 0, solved := false, loaded := none }, .ok)
  | .setParity => match s.sys with
    | none => (s, .err)
    | some _ => ({ s with k := 0 }, .ok)
  | .setKIndex n => ({ s with k := n }, .ok)
  | .solve =>
    if s.nb = 0 then ({ s with loaded := none }, .ok)
    else match s.sys with
      | none => (s, .err)
      | some _ => ({ s with loaded := none, solved := true, nsol := s.nsol + 1, k := s.k + 1 }, .ok)
  | .getD b => s.get b (.mode 'd')
  | .getH b => s.get b (.mode 'h')
  | .getB b => s.get b (.mode 'b')
  | .getE b => s.get b fun b n => .E (.mode 'd' b n)
  | .eFromD => s.onField ['d'] fun f => ({ s with loaded := some (.E f) }, .ok)
  | .getEps => match s.sys with
    | none => (s, .err)
    | some _ => ({ s with loaded := some .eps }, .ok)
  | .getMu => match s.sys with
    | none => (s, .err)
    | some _ => ({ s with loaded := some .mu }, .ok)
  | .load c n => match s.sys with
    | none => (s, .err)
    | some _ => if c ∈ "dhbecvCDHBnmR".toList then ({ s with loaded := some (.user c n) }, .ok) else (s, .err)
  | .nonBloch => s.onField "dhbecv".toList fun f => ({ s with loaded := some (.nonBloch f) }, .ok)
  | .energy => s.onField "dhb".toList fun f =>
    if f.letter = 'h' ∧ s.withMu = true then (s, .err)
    else ({ s with loaded := some (.energy f) }, .val f.letter.toUpper ((Fld.energy f).data s.withMu))
  | .squared => s.onField "dhbecv".toList fun f => ({ s with loaded := some (.sq f) }, .ok)
  | .divergence => s.onField "dhbec".toList fun f => ({ s with loaded := some (.div f) }, .ok)
  | .fixPhase => s.onField "dhbecv".toList fun f =>
    ({ s with loaded := some (.fixed f) }, .phase (f.band.getD 0) (f.data s.withMu))
  | .output => match s.loaded with
    | none => (s, .err)
    | some f =>
      ({ s with loaded := none },
        if f.letter = 'n' ∨ f.letter = 'm' then .file f.letter 0 0 (f.data s.withMu)
        else .file f.letter s.k (f.band.getD 0) (f.data s.withMu))
  | .read r => s.onField (accepted r) fun f => (s, .val f.letter (f.data s.withMu))
  | .groupVel => match s.sys with
    | none => (s, .err)
    | some _ => if s.k = 0 then (s, .err) else ({ s with loaded := none }, .ok)
  | .dotEig => match s.sys with
    | none => (s, .err)
    | some _ => (s, .ok)
  | .setEig => match s.sys with
    | none => (s, .err)
    | some _ => ({ s with loaded := none, nsol := s.nsol + 1 }, .ok)
  | .symmetry b => match s.get b (.mode 'b') with
    | (s', .ok) => (s', .val 'b' (.mode 'b' b.toNat s.nsol))
    | r => r
  | .groupVel1 b => match s.sys with
    | none => (s, .err)
    | some m =>
      if s.k ≠ 0 ∧ 1 ≤ b ∧ b ≤ m.p then ({ s with loaded := none }, .val 'g' (.mode 'g' b.toNat s.nsol)) else (s, .err)
  | .dominant b => match s.sys with
    | none => (s, .err)
    | some m => if s.solved ∧ 1 ≤ b ∧ b ≤ m.p then (s, .val 'k' (.mode 'k' b.toNat s.nsol)) else (s, .err)
  | .epsPoint => match s.sys with
    | none => (s, .err)
    | some _ => (s, .val 'n' .eps)

def Spec.run (s : Spec) : List Cmd → Spec × List Resp
  | [] => (s, [])
  | c :: cs => let r := s.step c; let q := Spec.run r.1 cs; (q.1, r.2 :: q.2)

/-- The uses of the commands for which the program is proved to behave as specified; every other use is refuted below.
(Documented use, except that the listed ones are defects of the program and not of its use.) -/
def Allowed (s : Spec) : Cmd → Prop
  -- num-bands must not have changed since init-params
  | .solve => ∀ m, s.sys = some m → s.nb = m.p
  -- a k-point index is only set by hand after solve-kpoint
  | .setKIndex n => n = 0 ∨ s.solved = true
  -- defect: a failing get-efield changes a D field that is loaded into E
  | .getE b => (∃ m, s.sys = some m ∧ s.k ≠ 0 ∧ 1 ≤ b ∧ b ≤ m.p) ∨ ∀ f, s.loaded = some f → f.letter ≠ 'd'
  -- defect: compute-field-squared continues after its error message
  | .squared => ∃ f, s.loaded = some f ∧ f.letter ∈ "dhbecv".toList
  -- defect: compute-field-divergence uses mdata before init-params
  | .divergence => s.sys ≠ none
  -- defect: field-load does not set the band
  | .fixPhase => ∀ f, s.loaded = some f → f.letter ∈ "dhbecv".toList → f.band ≠ none
  | .output => ∀ f, s.loaded = some f → f.letter ≠ 'n' → f.letter ≠ 'm' → f.band ≠ none
  -- defect: cvector-field-nonbloch! turns scalar fields into vector fields
  | .nonBloch => ∀ f, s.loaded = some f → f.letter ∈ "dhbecv".toList
  -- defect: a failing compute-group-velocities drops the current field
  | .groupVel => (s.k = 0 → s.loaded = none) ∧ ∀ m, s.sys = some m → s.nb = m.p
  -- defect: dot-eigenvectors overwrites the current field if there is a permeability
  | .dotEig => s.withMu = true → s.loaded = none
  -- defect: compute-symmetry of a band that does not exist uses the field that is loaded
  | .symmetry b => (∃ m, s.sys = some m ∧ s.k ≠ 0 ∧ 1 ≤ b ∧ b ≤ m.p) ∨ ∀ f, s.loaded = some f → f.letter ∉ "db".toList
  -- defect: compute-1-group-velocity tests nothing about the band and returns an uninitialised number without a solution
  | .groupVel1 b => ∃ m, s.sys = some m ∧ s.k ≠ 0 ∧ 1 ≤ b ∧ b ≤ m.p
  -- defect: get-dominant-planewave does not notice that there is no solution
  | .dominant b => s.solved = true ∨ ∀ m, s.sys = some m → ¬ (1 ≤ b ∧ b ≤ m.p)
  -- defect: get-epsilon-point uses mdata before init-params
  | .epsPoint => s.sys ≠ none
  | _ => True

/-- All commands of the history are allowed when they are issued. -/
def AllowedRun (s : Spec) : List Cmd → Prop
  | [] => True
  | c :: cs => Allowed s c ∧ AllowedRun (s.step c).1 cs

end Mpb.Session

import Verif.Objects.Model

/-!
# Specification of field variables

A field variable holds a value: its type, its size, what the field is (a letter), and a value at every grid point.  There is no memory.
-/

namespace Mpb.Objects

open Mpb.Field

/-- The type of a value at a grid point. -/
def itemKind : Item → Kind
  | .r _ => .rs
  | .c _ => .cs
  | .v _ => .cv

/-- The values of a field that was written to memory as reals: one real, one complex number or three complex numbers per point. -/
def decode (k : Kind) (x : ℕ → ℝ) (i : ℕ) : Item :=
  match k with
  | .rs => .r (x i)
  | .cs => .c ⟨x (2 * i), x (2 * i + 1)⟩
  | .cv => .v ⟨⟨x (6 * i), x (6 * i + 1)⟩, ⟨x (6 * i + 2), x (6 * i + 3)⟩, ⟨x (6 * i + 4), x (6 * i + 5)⟩⟩

/-- A field. -/
structure Fv where
  kind : Kind
  letter : Char
  dims : Dims
  val : ℕ → Item

/-- The type of a field with a letter: the letters of complex vectors, real scalars ('m' is the permeability, get-mu) and complex scalars.
`none`: no field. -/
def letterKind (c : Char) : Option Kind :=
  if c ∈ ['d', 'h', 'b', 'e', 'c', 'v'] then some .cv
  else if c ∈ ['D', 'H', 'B', 'n', 'm', 'R'] then some .rs
  else if c = 'C' then some .cs
  else none

/-- What a new field variable is: a real scalar that belongs to no band ('R'), a vector with the Bloch phase ('c'), a complex scalar ('C'). -/
def freshLetter (k : Kind) : Char :=
  if k = .rs then 'R' else if k = .cs then 'C' else 'c'

/-- The current size, the current field, the field variables. -/
structure Spec where
  sys : Option Dims
  cur : Option Fv
  objs : List Fv

def Spec.lookup (s : Spec) : Ref → Option Fv
  | .cur => s.cur
  | .obj n => s.objs[n]?

def Spec.put (s : Spec) (r : Ref) (v : Fv) : Spec :=
  match r with
  | .cur => { s with cur := some v }
  | .obj n => { s with objs := s.objs.set n v }

def zeroItem : Kind → Item
  | .rs => .r 0
  | .cs => .c 0
  | .cv => .v ⟨0, 0, 0⟩

/-- What `field-map!` makes: of one field of the same type, the same kind of field; of several fields, a generic one. -/
def newLetter (v : Fv) (ws : List Fv) : Char :=
  match ws with
  | [w] => if w.kind = v.kind then w.letter else v.letter
  | [] => v.letter
  | _ => freshLetter v.kind

def Spec.make (s : Spec) (k : Kind) (r : Ref) : Spec × Resp :=
  match s.lookup r with
  | none => (s, .dies)
  | some v => ({ s with objs := s.objs ++ [⟨k, freshLetter k, v.dims, fun _ => zeroItem k⟩] }, .field s.objs.length)

/-- All of them, or nothing. -/
def Spec.all (s : Spec) : List Ref → Option (List Fv)
  | [] => some []
  | q :: qs => match s.lookup q, s.all qs with
    | some v, some vs => some (v :: vs)
    | _, _ => none

open Classical in
noncomputable def Spec.step (s : Spec) : Cmd → Spec × Resp
  | .init d _ _ => ({ s with sys := some d, cur := none }, .ok)
  | .fill c x => match s.sys, letterKind c with
    | some d, some k => ({ s with cur := some ⟨k, c, d, decode k x⟩ }, .ok)
    | _, _ => (s, .dies)
  | .scratch _ => if s.sys = none then (s, .dies) else ({ s with cur := none }, .ok)
  | .make k r => s.make k r
  | .fieldMake r => match s.lookup r with
    | none => (s, .dies)
    | some v => s.make v.kind r
  | .nonbloch r => match s.lookup r with
    | none => (s, .dies)
    | some v => (s.put r { v with letter := 'v' }, .ok)
  | .conform r q => match s.lookup r, s.lookup q with
    | some v, some w => (s, .bool (decide (v.dims = w.dims)))
    | _, _ => (s, .dies)
  | .set r q => match s.lookup r, s.lookup q with
    | some v, some w => if v.kind = w.kind ∧ v.dims = w.dims then (s.put r w, .ok) else (s, .dies)
    | _, _ => (s, .dies)
  | .load q => match s.lookup q with
    | some w => if s.sys = some w.dims then ({ s with cur := some w }, .ok) else (s, .dies)
    | none => (s, .dies)
  | .map r fn qs => match s.lookup r, s.all qs with
    | some v, some ws =>
      if ∀ w ∈ ws, w.dims = v.dims then (s.put r ⟨v.kind, newLetter v ws, v.dims, fun i => fn (ws.map fun w => w.val i)⟩, .ok) else (s, .dies)
    | _, _ => (s, .dies)
  | .get q i => match s.lookup q with
    | some w => if i < w.dims.N then (s, .item w.letter (w.val i)) else (s, .dies)
    | none => (s, .dies)

noncomputable def Spec.run (s : Spec) : List Cmd → Spec × List Resp
  | [] => (s, [])
  | c :: cs => match s.step c with
    | (s, .dies) => (s, [.dies])
    | (s, r) => ((s.run cs).1, r :: (s.run cs).2)

/-- The commands the theorem is about: the FFT array is at least as large as the grid; commands fill the current field with a field (not the
permeability, see `C82_mu_refuted`); `cvector-field-nonbloch!` is used on complex vector fields; the user's function returns a value of
the type of the destination. -/
def Allowed (s : Spec) : Cmd → Prop
  | .init d fft _ => d.N ≤ fft
  | .fill c _ => c ≠ 'm' ∧ letterKind c ≠ none
  | .nonbloch r => ∀ v, s.lookup r = some v → v.kind = .cv
  | .map r fn _ => ∀ v, s.lookup r = some v → ∀ l, itemKind (fn l) = v.kind
  | _ => True

def AllowedRun (s : Spec) : List Cmd → Prop
  | [] => True
  | c :: cs => Allowed s c ∧ AllowedRun (s.step c).1 cs

/-- Before init-params. -/
def Spec.start : Spec := ⟨none, none, []⟩

end Mpb.Objects

import Verif.Objects.Spec
import Verif.Objects.PointModel
import Verif.Field.PointProps

/-!
# Specification of the values of fields at points

A field is a function on the infinite grid; its value at a point is the linear interpolation of that function, times exp(2πi k·p) for fields
that have a Bloch phase, where k is the wave vector of the last `solve-kpoint`.
-/

namespace Mpb.Objects

open Mpb.Field

/-- The number of points of the last dimension larger than one. -/
def Dims.last (d : Dims) : ℕ := if d.nz > 1 then d.nz else if d.ny > 1 then d.ny else d.nx

/-- How many points are stored in the three directions: with inversion symmetry half of the last dimension. -/
def Dims.stored (inv : Bool) (d : Dims) : ℕ × ℕ × ℕ :=
  if inv then
    if d.nz > 1 then (d.nx, d.ny, d.nz / 2 + 1) else if d.ny > 1 then (d.nx, d.ny / 2 + 1, d.nz) else (d.nx / 2 + 1, d.ny, d.nz)
  else (d.nx, d.ny, d.nz)

/-- The sizes a program with one process has: all points of the stored half are in the arrays. -/
structure Dims.Good (inv : Bool) (d : Dims) : Prop where
  nx : 0 < d.nx
  ny : 0 < d.ny
  nz : 0 < d.nz
  N : d.N = (d.stored inv).1 * (d.stored inv).2.1 * (d.stored inv).2.2
  half : inv = true → d.lastDimSize / 2 = d.last / 2 + 1

/-- The place of a stored point. -/
def Dims.place (inv : Bool) (d : Dims) (i j k : ℕ) : ℕ := (i * (d.stored inv).2.1 + j) * (d.stored inv).2.2 + k

/-- The index in the cell. -/
def wrap (n : ℕ) (i : ℤ) : ℕ := (i % n).toNat

/-- Where the value at the grid point `(i,j,k)` is found: its place, or that of the inverted point with `true`. -/
def Dims.find (inv : Bool) (d : Dims) (i j k : ℤ) : ℕ × Bool :=
  if inv = true ∧ (if d.nz > 1 then wrap d.nz k else if d.ny > 1 then wrap d.ny j else wrap d.nx i) > d.last / 2 then
    (d.place inv (wrap d.nx (-i)) (wrap d.ny (-j)) (wrap d.nz (-k)), true)
  else (d.place inv (wrap d.nx i) (wrap d.ny j) (wrap d.nz k), false)

/-- The numbers in a field. -/
def realOf : Item → ℝ
  | .r x => x
  | _ => 0

def cplxOf : Item → ℂ
  | .c z => z
  | _ => 0

def vectOf : Item → V3 ℂ
  | .v v => v
  | _ => ⟨0, 0, 0⟩

variable (inv : Bool)

/-- A complex field on the whole grid: a point that is not stored has the conjugate of the value at the inverted point. -/
noncomputable def onGrid (d : Dims) (F : ℕ → ℂ) (i j k : ℤ) : ℂ :=
  if (d.find inv i j k).2 then starRingEnd ℂ (F (d.find inv i j k).1) else F (d.find inv i j k).1

/-- The interpolated values. -/
noncomputable def Fv.real (size : V3 ℝ) (v : Fv) (p : V3 ℝ) : ℝ :=
  at_ (shapeOf inv v.dims) size p fun i j k => realOf (v.val (v.dims.find inv i j k).1)

noncomputable def Fv.cplx (size : V3 ℝ) (v : Fv) (p : V3 ℝ) : ℂ :=
  at_ (shapeOf inv v.dims) size p (onGrid inv v.dims fun n => cplxOf (v.val n))

noncomputable def Fv.vect (size : V3 ℝ) (v : Fv) (p : V3 ℝ) : V3 ℂ :=
  ⟨at_ (shapeOf inv v.dims) size p (onGrid inv v.dims fun n => (vectOf (v.val n)).x),
    at_ (shapeOf inv v.dims) size p (onGrid inv v.dims fun n => (vectOf (v.val n)).y),
    at_ (shapeOf inv v.dims) size p (onGrid inv v.dims fun n => (vectOf (v.val n)).z)⟩

/-- exp(2πi k·p), with `p` in units of the lattice vectors. -/
noncomputable def phaseAt (size k p : V3 ℝ) : ℂ :=
  Complex.exp (2 * Real.pi * Complex.I * (k.x * (p.x / size.x : ℝ) + k.y * (p.y / size.y : ℝ) + k.z * (p.z / size.z : ℝ)))

/-- What the commands answer for a field. -/
noncomputable def Fv.answerReal (size : V3 ℝ) (v : Fv) (p : V3 ℝ) : PResp :=
  if v.kind = .rs then .num (v.real inv size p) else .obj .dies

noncomputable def Fv.answerVect (size k : V3 ℝ) (bloch : Bool) (v : Fv) (p : V3 ℝ) : PResp :=
  if v.kind = .cv then
    if bloch = true ∨ v.letter = 'v' then .vec (v.vect inv size p) else .vec (V3.map (· * phaseAt size k p) (v.vect inv size p))
  else .obj .dies

noncomputable def Fv.answerCplx (size k : V3 ℝ) (bloch : Bool) (v : Fv) (p : V3 ℝ) : PResp :=
  if v.kind = .cs then
    if bloch = true then .cnum (v.cplx inv size p) else .cnum (v.cplx inv size p * phaseAt size k p)
  else .obj .dies

/-- The fields and the current wave vector. -/
structure PSpec where
  s : Spec
  k : V3 ℝ

/-- The answer for a field, or an error if there is none. -/
def ans (v : Option Fv) (f : Fv → PResp) : PResp := match v with
  | none => .obj .dies
  | some v => f v

open Classical in
noncomputable def PSpec.step (size : V3 ℝ) (s : PSpec) : PCmd → PSpec × PResp
  | .obj c => (⟨(s.s.step c).1, s.k⟩, .obj (s.s.step c).2)
  | .solve k x => if s.s.sys = none then (s, .obj .dies) else (⟨(s.s.step (.scratch x)).1, k⟩, .obj .ok)
  | .rpoint r p => (s, ans (s.s.lookup r) fun v => v.answerReal inv size p)
  | .vpoint b r p => (s, ans (s.s.lookup r) fun v => v.answerVect inv size s.k b p)
  | .cpoint b r p => (s, ans (s.s.lookup r) fun v => v.answerCplx inv size s.k b p)
  | .energyPoint p => (s, ans s.s.cur fun v => if v.letter = 'n' then .obj .dies else v.answerReal inv size p)
  | .fieldPoint b p => (s, ans s.s.cur fun v => v.answerVect inv size s.k b p)
  | .cscalarPoint b p => (s, ans s.s.cur fun v => v.answerCplx inv size s.k b p)

noncomputable def PSpec.run (size : V3 ℝ) (s : PSpec) : List PCmd → PSpec × List PResp
  | [] => (s, [])
  | c :: cs => match s.step inv size c with
    | (s, .obj .dies) => (s, [.obj .dies])
    | (s, r) => ((s.run size cs).1, r :: (s.run size cs).2)

/-- The commands of C82's theorem; the sizes of a system are good. -/
def PAllowed (s : PSpec) : PCmd → Prop
  | .obj c => Allowed s.s c ∧ ∀ d fft junk, c = .init d fft junk → d.Good inv
  | _ => True

def PAllowedRun (size : V3 ℝ) (s : PSpec) : List PCmd → Prop
  | [] => True
  | c :: cs => PAllowed inv s c ∧ PAllowedRun size (s.step inv size c).1 cs

end Mpb.Objects

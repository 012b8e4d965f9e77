import Verif.Core.Mem
import Verif.Core.Vec
import Mathlib.Analysis.SpecialFunctions.Trigonometric.Basic

/-!
# Model of `utils/mpb-data.c`

The post-processing program: it maps a field given on one unit cell onto another cell (more periods, another resolution,
a rectangular cell).  Numbers are exact reals instead of `double`s.  An access outside an array makes the whole
computation fail (`none`).
-/

namespace Mpb.MpbData

/-- The integer part of C's `modf` and of a conversion `double → int`: truncation towards zero. -/
noncomputable def trunc (x : ℝ) : ℤ := if 0 ≤ x then ⌊x⌋ else ⌈x⌉

/-- utils/mpb-data.c:38-41 `MODF_POSITIVE(x, xi)`: the fractional part in `[0,1)` and the integer part.  The integer part,
a `double` in C, is an integer here. -/
noncomputable def modfPositive (x : ℝ) : ℝ × ℤ :=
  let xi := trunc x
  let f := x - xi
  if f < 0 then
    if 1 ≤ f + 1 then (0, xi) else (f + 1, xi - 1)
  else (f, xi)

/-- One direction of the interpolation: the two grid indices, the unit cells they lie in, and the weight of the second. -/
structure Axis where
  i1 : ℤ
  i2 : ℤ
  xi : ℤ
  xi2 : ℤ
  dx : ℝ

/-- utils/mpb-data.c:43-63 `ADJ_POINT`: the neighbouring grid point on the side of `dx`. -/
noncomputable def adjPoint (i1 nx : ℤ) (dx : ℝ) (xi : ℤ) : Axis :=
  if 0 ≤ dx then
    if i1 + 1 ≥ nx then ⟨i1, i1 + 1 - nx, xi, xi + 1, dx⟩ else ⟨i1, i1 + 1, xi, xi, dx⟩
  else
    if i1 - 1 < 0 then ⟨i1, i1 - 1 + nx, xi, xi - 1, -dx⟩ else ⟨i1, i1 - 1, xi, xi, -dx⟩

/-- utils/mpb-data.c:155-163,169-174, one of the three directions: split `x`, find the grid points around it, and, if
`pick_nearest`, replace the weight by 0 or 1. -/
noncomputable def axis (nearest : Bool) (n : ℕ) (x : ℝ) : Axis :=
  let f := modfPositive x
  let i1 := trunc (f.1 * n)
  let a := adjPoint i1 n (f.1 * n - i1) f.2
  if nearest then { a with dx := if a.dx ≤ 1 / 2 then 0 else 1 } else a

/-- The index of the first (`false`) or second (`true`) grid point. -/
def Axis.idx (a : Axis) (e : Bool) : ℤ := if e then a.i2 else a.i1
/-- The unit cell of that grid point. -/
def Axis.cell (a : Axis) (e : Bool) : ℤ := if e then a.xi2 else a.xi
/-- Its weight: `mdx = 1 - dx` or `dx` (utils/mpb-data.c:175-177). -/
noncomputable def Axis.wt (a : Axis) (e : Bool) : ℝ := if e then a.dx else 1 - a.dx

/-- The static variables of `add_cmplx_times_phase` (utils/mpb-data.c:70). -/
structure Cache where
  phase : ℝ
  pre : ℝ
  pim : ℝ

/-- Their initial values. -/
noncomputable def cache0 : Cache := ⟨0, 1, 0⟩

/-- utils/mpb-data.c:73-78: the cached cosine and sine are recomputed when the phase differs from the cached one. -/
noncomputable def lookup (c : Cache) (newPhase : ℝ) : Cache := by
  classical
  exact if newPhase ≠ c.phase then ⟨newPhase, Real.cos newPhase, Real.sin newPhase⟩ else c

/-- utils/mpb-data.c:65-81 `add_cmplx_times_phase`.  A pair of `real *` (real and imaginary part) is a complex number. -/
noncomputable def addTimesPhase (c : Cache) (sum d : ℂ) (ix iy iz : ℤ) (s : V3 ℝ) (w : ℝ) : ℂ × Cache :=
  let c := lookup c (ix * s.x + iy * s.y + iz * s.z)
  (⟨sum.re + (d.re * c.pre - d.im * c.pim) * w, sum.im + (d.re * c.pim + d.im * c.pre) * w⟩, c)

/-- Read from an array: fails outside it. -/
def rd {α : Type} (d : List α) (i : ℤ) : Option α := if 0 ≤ i then d[i.toNat]? else none

/-- The order in which the eight neighbours are visited (utils/mpb-data.c:189-228, 234-241). -/
def corners : List (Bool × Bool × Bool) :=
  [(false, false, false), (false, false, true), (false, true, false), (false, true, true),
   (true, false, false), (true, false, true), (true, true, false), (true, true, true)]

/-- The map's geometry: the input and output grid sizes, the coordinate map (input lattice coordinates of the output
lattice vectors), the wave vector (if any), and the two options. -/
structure Params where
  n0 : ℕ
  n1 : ℕ
  n2 : ℕ
  m0 : ℕ
  m1 : ℕ
  m2 : ℕ
  map : M3 ℝ
  kvector : Option (V3 ℝ)
  nearest : Bool
  transpose : Bool

variable (P : Params)

/-- utils/mpb-data.c:106-108: the columns of the coordinate map per output grid step. -/
noncomputable def Params.step : M3 ℝ :=
  ⟨V3.smul (1 / P.m0) P.map.c0, V3.smul (1 / P.m1) P.map.c1, V3.smul (1 / P.m2) P.map.c2⟩

/-- utils/mpb-data.c:110-115: phase difference per cell in each lattice direction. -/
noncomputable def Params.s : V3 ℝ :=
  match P.kvector with
  | some k => ⟨k.x * (2 * Real.pi), k.y * (2 * Real.pi), k.z * (2 * Real.pi)⟩
  | none => ⟨0, 0, 0⟩

/-- utils/mpb-data.c:119-127: the shift that maps the origin (middle) of the output cell to the origin (middle) of the
input cell. -/
noncomputable def Params.shift : V3 ℝ :=
  ⟨1 / 2 - (P.step.c0.x * (1 / 2) * P.m0 + P.step.c1.x * (1 / 2) * P.m1 + P.step.c2.x * (1 / 2) * P.m2),
   1 / 2 - (P.step.c0.y * (1 / 2) * P.m0 + P.step.c1.y * (1 / 2) * P.m1 + P.step.c2.y * (1 / 2) * P.m2),
   1 / 2 - (P.step.c0.z * (1 / 2) * P.m0 + P.step.c1.z * (1 / 2) * P.m1 + P.step.c2.z * (1 / 2) * P.m2)⟩

/-- utils/mpb-data.c:149-154: the position of an output grid point in the input cell. -/
noncomputable def Params.pos (t : ℕ × ℕ × ℕ) : V3 ℝ :=
  ⟨P.step.c0.x * t.1 + P.step.c1.x * t.2.1 + P.step.c2.x * t.2.2 + P.shift.x,
   P.step.c0.y * t.1 + P.step.c1.y * t.2.1 + P.step.c2.y * t.2.2 + P.shift.y,
   P.step.c0.z * t.1 + P.step.c1.z * t.2.1 + P.step.c2.z * t.2.2 + P.shift.z⟩

/-- utils/mpb-data.c:138-141: the index of an output grid point, possibly with the first two directions exchanged. -/
def Params.ijk (t : ℕ × ℕ × ℕ) : ℕ :=
  if P.transpose then (t.2.1 * P.m0 + t.1) * P.m2 + t.2.2 else (t.1 * P.m1 + t.2.1) * P.m2 + t.2.2

/-- utils/mpb-data.c:184 `IN_INDEX` of the neighbour `e`. -/
def Params.inIndex (a b c : Axis) (e : Bool × Bool × Bool) : ℤ := (a.idx e.1 * P.n1 + b.idx e.2.1) * P.n2 + c.idx e.2.2

/-- utils/mpb-data.c:185-230: one output point of a complex field. -/
noncomputable def Params.pointC (din : List ℂ) (c : Cache) (p : V3 ℝ) : Option (ℂ × Cache) :=
  let ax := axis P.nearest P.n0 p.x
  let ay := axis P.nearest P.n1 p.y
  let az := axis P.nearest P.n2 p.z
  corners.foldlM (fun st e =>
    (rd din (P.inIndex ax ay az e)).map fun d =>
      addTimesPhase st.2 st.1 d (ax.cell e.1) (ay.cell e.2.1) (az.cell e.2.2) P.s (ax.wt e.1 * ay.wt e.2.1 * az.wt e.2.2))
    ((0 : ℂ), c)

/-- utils/mpb-data.c:231-242: one output point of a real field (the eight terms added from left to right). -/
noncomputable def Params.pointR (din : List ℝ) (p : V3 ℝ) : Option ℝ :=
  let ax := axis P.nearest P.n0 p.x
  let ay := axis P.nearest P.n1 p.y
  let az := axis P.nearest P.n2 p.z
  corners.foldlM (fun sum e =>
    (rd din (P.inIndex ax ay az e)).map fun d => sum + d * ax.wt e.1 * ay.wt e.2.1 * az.wt e.2.2) (0 : ℝ)

/-- One assignment to the output array; fails outside it. -/
def Params.wr {α : Type} (mem : ℕ → α) (a : ℕ) (v : α) : Option (ℕ → α) :=
  if a < P.m0 * P.m1 * P.m2 then some (Function.update mem a v) else none

/-- One iteration of the loop (utils/mpb-data.c:129-246), complex field. -/
noncomputable def Params.stepC (din : List ℂ) (st : (ℕ → ℂ) × Cache) (t : ℕ × ℕ × ℕ) : Option ((ℕ → ℂ) × Cache) :=
  (P.pointC din st.2 (P.pos t)).bind fun r => (P.wr st.1 (P.ijk t) r.1).map fun mem => (mem, r.2)

/-- One iteration of the loop (utils/mpb-data.c:129-246), real field. -/
noncomputable def Params.stepR (din : List ℝ) (st : ℕ → ℝ) (t : ℕ × ℕ × ℕ) : Option (ℕ → ℝ) :=
  (P.pointR din (P.pos t)).bind fun r => P.wr st (P.ijk t) r

/-- utils/mpb-data.c:88-253 `map_data` on a complex field; the cache `c` is whatever earlier calls left behind. -/
noncomputable def mapDataC (din : List ℂ) (mem : ℕ → ℂ) (c : Cache) : Option ((ℕ → ℂ) × Cache) :=
  (loop3 P.m0 P.m1 P.m2).foldlM (P.stepC din) (mem, c)

/-- utils/mpb-data.c:88-253 `map_data` on a real field. -/
noncomputable def mapDataR (din : List ℝ) (mem : ℕ → ℝ) : Option (ℕ → ℝ) :=
  (loop3 P.m0 P.m1 P.m2).foldlM (P.stepR din) mem

/-! ## The output lattice -/

/-- libctl's `vector3_norm`. -/
noncomputable def norm (v : V3 ℝ) : ℝ := Real.sqrt (V3.dot v v)

/-- libctl's `unit_vector3`: a zero vector is returned unchanged. -/
noncomputable def unit (v : V3 ℝ) : V3 ℝ := by
  classical
  exact if norm v = 0 then v else V3.smul (1 / norm v) v

/-- libctl's `matrix3x3_inverse`: the adjugate divided by the determinant. -/
noncomputable def inverse (m : M3 ℝ) : M3 ℝ :=
  let d := 1 / M3.det m
  let r0 := V3.smul d (V3.cross m.c1 m.c2)
  let r1 := V3.smul d (V3.cross m.c2 m.c0)
  let r2 := V3.smul d (V3.cross m.c0 m.c1)
  M3.transpose ⟨r0, r1, r2⟩

/-- The quantity by which utils/mpb-data.c:632-635 divides: the component along `ve` of `(c1 - c0) × (c2 - c0)`. -/
noncomputable def rectDen (R : M3 ℝ) (ve : V3 ℝ) : ℝ := V3.dot (V3.cross (R.c1 - R.c0) (R.c2 - R.c0)) ve

/-- utils/mpb-data.c:623-626: the direction of the first axis, given (`-e`) or that of the first lattice vector. -/
noncomputable def rectDir (R : M3 ℝ) (ve : Option (V3 ℝ)) : V3 ℝ :=
  match ve with
  | some v => unit v
  | none => unit R.c0

/-- utils/mpb-data.c:623-647: the rectified lattice.  A division by zero fails (in C it produces infinities). -/
noncomputable def rectify (R : M3 ℝ) (ve : Option (V3 ℝ)) : Option (M3 ℝ) := by
  classical
  exact
  let e := rectDir R ve
  let V := V3.dot (V3.cross R.c0 R.c1) R.c2
  let c1 := R.c1 - R.c0
  let c2 := R.c2 - R.c0
  let den := V3.dot (V3.cross c1 c2) e
  if den = 0 then none else
  let c0' := V3.smul (V / den) e
  let c1' := c1 - V3.smul (V3.dot e c1) e
  let c2' := c2 - V3.smul (V3.dot e c2) e
  if V3.dot c1' c1' = 0 then none else
  some ⟨c0', c1', c2' - V3.smul (V3.dot c1' c2' / V3.dot c1' c1') c1'⟩

/-- utils/mpb-data.c:649-652: the rotation that expresses Cartesian vectors in the rectified axes. -/
noncomputable def cartMap (R : M3 ℝ) : M3 ℝ := inverse ⟨unit R.c0, unit R.c1, unit R.c2⟩

/-- utils/mpb-data.c:665-667: multiply the periods. -/
noncomputable def multiply (m : V3 ℝ) (R : M3 ℝ) : M3 ℝ := ⟨V3.smul m.x R.c0, V3.smul m.y R.c1, V3.smul m.z R.c2⟩

/-- utils/mpb-data.c:613-675: the output lattice from the input lattice and the options. -/
noncomputable def outLattice (Rin : M3 ℝ) (doRect : Bool) (ve : Option (V3 ℝ)) (m : V3 ℝ) : Option (M3 ℝ) :=
  (if doRect then rectify Rin ve else some Rin).map (multiply m)

/-- utils/mpb-data.c:676: the coordinate map. -/
noncomputable def coordMap (Rin Rout : M3 ℝ) : M3 ℝ := M3.mul (inverse Rin) Rout

/-! ## Arguments of the form `file:dataset` -/

/-- utils/mpb-data.c:752-774 `split_fname`, on character lists: `strchr` finds the first colon, `strncpy` copies what is
in front of it; `data_name` points behind it, or at the terminating null character. -/
def splitFname (fname : List Char) : List Char × List Char :=
  match fname.findIdx? (· == ':') with
  | some p =>
    let colon := fname.drop p
    (fname.take (fname.length - colon.length), colon.drop 1)
  | none => (fname, fname.drop fname.length)

end Mpb.MpbData

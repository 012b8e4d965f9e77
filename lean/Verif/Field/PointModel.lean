import Verif.MpbData.Model

/-!
# Model of `get-field-point` and friends (mpb/fields.c:547-862)

Interpolation of a stored field at an arbitrary point.  Numbers are exact reals.  A stored field is a flat list of reals
(the interleaved components); `off` is the offset of the wanted component (`data`, `data + 1`, `&curfield[1].re`, …).
-/

namespace Mpb.Field
open MpbData (trunc rd)

/-- The shape of a stored field: the grid, whether only half of it is stored (the inversion-symmetric build, i.e.
`SCALAR_COMPLEX` not defined) and the padded last dimension. -/
structure Shape where
  nx : ℕ
  ny : ℕ
  nz : ℕ
  inv : Bool
  lastDimSize : ℕ

variable (S : Shape)

/-- mpb/fields.c:562 `nlast`: the stored length of the last dimension. -/
def Shape.nlast : ℕ := S.lastDimSize / 2

/-- mpb/fields.c:563: the index in the last dimension that is larger than one. -/
def Shape.lastIdx (ix iy iz : ℤ) : ℤ := if S.nz > 1 then iz else if S.ny > 1 then iy else ix

/-- mpb/fields.c:560-575: the stored point used for `(ix,iy,iz)` and whether it is the inverted one. -/
def Shape.target (ix iy iz : ℤ) : ℤ × ℤ × ℤ × Bool :=
  if S.inv then
    if S.lastIdx ix iy iz ≥ S.nlast then
      (if ix ≠ 0 then S.nx - ix else ix, if iy ≠ 0 then S.ny - iy else iy, if iz ≠ 0 then S.nz - iz else iz, true)
    else (ix, iy, iz, false)
  else (ix, iy, iz, false)

/-- mpb/fields.c:571: the stored dimensions. -/
def Shape.dims : ℕ × ℕ × ℕ :=
  if S.inv then
    if S.nz > 1 then (S.nx, S.ny, S.nlast) else if S.ny > 1 then (S.nx, S.nlast, S.nz) else (S.nlast, S.ny, S.nz)
  else (S.nx, S.ny, S.nz)

/-- mpb/fields.c:556-598 `get_val` without MPI.  `conj` asks for the sign of an imaginary part at inverted points. -/
def getVal (data : List ℝ) (off stride : ℕ) (conj : Bool) (ix iy iz : ℤ) : Option ℝ :=
  let t := S.target ix iy iz
  let d := S.dims
  (rd data (off + ((t.1 * d.2.1 + t.2.1) * d.2.2 + t.2.2.1) * stride)).map fun val =>
    if conj && t.2.2.2 then -val else val

/-- One process of an MPI run: the rows `y0 ≤ iy < y0 + ny` of the stored y dimension, in `y x z` order. -/
structure Proc where
  y0 : ℕ
  ny : ℕ
  data : List ℝ

/-- mpb/fields.c:556-598 `get_val` with MPI: the value if the point is stored in this process, otherwise 0. -/
def getValMpi (p : Proc) (off stride : ℕ) (conj : Bool) (ix iy iz : ℤ) : Option ℝ :=
  let t := S.target ix iy iz
  let d := S.dims
  let ly := t.2.1 - p.y0
  (if 0 ≤ ly ∧ ly < p.ny then rd p.data (off + ((ly * d.1 + t.1) * d.2.2 + t.2.2.1) * stride) else some 0).map fun val =>
    if conj && t.2.2.2 then -val else val

/-- mpb/fields.c:607-627, one direction: the two grid indices and the weight of the second, from the coordinate in units
of the lattice vector. -/
noncomputable def axis1 (n : ℕ) (c : ℝ) : ℤ × ℤ × ℝ :=
  let r0 := c + 1 / 2 - trunc (c + 1 / 2)
  let r := if r0 < 0 then r0 + 1 else r0
  let x := trunc (r * n)
  let dx := r * n - x
  (x, (n + (if dx ≥ 0 then x + 1 else x - 1)) % (n : ℤ), |dx|)

/-- mpb/fields.c:631-636: combine the eight values `D(x,y,z)`. -/
noncomputable def combine (D : ℤ → ℤ → ℤ → Option ℝ) (ax ay az : ℤ × ℤ × ℝ) : Option ℝ := do
  let d000 ← D ax.1 ay.1 az.1
  let d100 ← D ax.2.1 ay.1 az.1
  let d010 ← D ax.1 ay.2.1 az.1
  let d110 ← D ax.2.1 ay.2.1 az.1
  let d001 ← D ax.1 ay.1 az.2.1
  let d101 ← D ax.2.1 ay.1 az.2.1
  let d011 ← D ax.1 ay.2.1 az.2.1
  let d111 ← D ax.2.1 ay.2.1 az.2.1
  let dx := ax.2.2
  let dy := ay.2.2
  let dz := az.2.2
  pure (((d000 * (1 - dx) + d100 * dx) * (1 - dy) + (d010 * (1 - dx) + d110 * dx) * dy) * (1 - dz) +
    ((d001 * (1 - dx) + d101 * dx) * (1 - dy) + (d011 * (1 - dx) + d111 * dx) * dy) * dz)

/-- mpb/fields.c:600-642 `interp_val` without MPI; `size` is `geometry_lattice.size`. -/
noncomputable def interpVal (size p : V3 ℝ) (data : List ℝ) (off stride : ℕ) (conj : Bool) : Option ℝ :=
  combine (getVal S data off stride conj) (axis1 S.nx (p.x / size.x)) (axis1 S.ny (p.y / size.y)) (axis1 S.nz (p.z / size.z))

/-- mpb/fields.c:600-642 `interp_val` with MPI: each process combines its own values, and the results are added. -/
noncomputable def interpValMpi (size p : V3 ℝ) (procs : List Proc) (off stride : ℕ) (conj : Bool) : Option ℝ :=
  (procs.mapM fun q => combine (getValMpi S q off stride conj) (axis1 S.nx (p.x / size.x)) (axis1 S.ny (p.y / size.y))
    (axis1 S.nz (p.z / size.z))).map List.sum

/-- mpb/fields.c:644-652 `interp_cval`. -/
noncomputable def interpCval (size p : V3 ℝ) (data : List ℝ) (off stride : ℕ) : Option ℂ := do
  let re ← interpVal S size p data off stride false
  let im ← interpVal S size p data (off + 1) stride true
  pure ⟨re, im⟩

/-- mpb/fields.c:644-652 `interp_cval` with MPI. -/
noncomputable def interpCvalMpi (size p : V3 ℝ) (procs : List Proc) (off stride : ℕ) : Option ℂ := do
  let re ← interpValMpi S size p procs off stride false
  let im ← interpValMpi S size p procs (off + 1) stride true
  pure ⟨re, im⟩

/-- mpb/fields.c:710-713 `get_bloch_field_point_`: the three components, offsets 0, 2, 4 with stride 6. -/
noncomputable def blochFieldPoint (size p : V3 ℝ) (data : List ℝ) : Option (V3 ℂ) := do
  let f0 ← interpCval S size p data 0 6
  let f1 ← interpCval S size p data 2 6
  let f2 ← interpCval S size p data 4 6
  pure ⟨f0, f1, f2⟩

/-- mpb/fields.c:735-739: the Bloch phase at `p`. -/
noncomputable def blochPhase (size k p : V3 ℝ) : ℂ :=
  let phi := 2 * Real.pi * (k.x * (p.x / size.x) + k.y * (p.y / size.y) + k.z * (p.z / size.z))
  ⟨Real.cos phi, Real.sin phi⟩

/-- mpb/fields.c:727-748 `get_field_point`; `hasK` is `curfield_type != 'v'`. -/
noncomputable def fieldPoint (size k p : V3 ℝ) (hasK : Bool) (data : List ℝ) : Option (V3 ℂ) :=
  (blochFieldPoint S size p data).map fun f => if hasK then V3.map (· * blochPhase size k p) f else f

/-- mpb/fields.c:703-708 `get_energy_point`: one real per point. -/
noncomputable def energyPoint (size p : V3 ℝ) (data : List ℝ) : Option ℝ := interpVal S size p data 0 1 false

/-- mpb/fields.c:750-776 `get_bloch_cscalar_point`, `get_cscalar_point`. -/
noncomputable def cscalarPoint (size k p : V3 ℝ) (data : List ℝ) : Option ℂ :=
  (interpCval S size p data 0 2).map (· * blochPhase size k p)

end Mpb.Field

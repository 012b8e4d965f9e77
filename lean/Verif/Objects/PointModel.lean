import Verif.Objects.Model
import Verif.Field.PointModel

/-!
# Model of the values of fields at points (mpb/fields.c:703-862)

`rscalar-field-get-point`, `cvector-field-get-point(-bloch)`, `cscalar-field-get-point(-bloch)` of field variables, and `get-energy-point`,
`get(-bloch)-field-point`, `get(-bloch)-cscalar-point` of the current field, together with the commands on field variables
(`Verif.Objects.Model`) and `solve-kpoint`.  One process.  Numbers are exact reals.
-/

namespace Mpb.Objects

open Mpb.Field

/-- The globals: those of `St`, and `cur_kvector` (mpb/mpb.c:245). -/
structure PSt where
  st : St
  k : V3 ℝ

inductive PResp
  | obj (r : Resp)
  | num (x : ℝ)
  | cnum (z : ℂ)
  | vec (v : V3 ℂ)

/-- The commands.  `solve k x`: `solve-kpoint`, which leaves `x` in the FFT array and no current field.  `bloch = true` are the commands without
the factor exp(ikx). -/
inductive PCmd
  | obj (c : Cmd)
  | solve (k : V3 ℝ) (x : ℕ → ℝ)
  | rpoint (r : Ref) (p : V3 ℝ)
  | vpoint (bloch : Bool) (r : Ref) (p : V3 ℝ)
  | cpoint (bloch : Bool) (r : Ref) (p : V3 ℝ)
  | energyPoint (p : V3 ℝ)
  | fieldPoint (bloch : Bool) (p : V3 ℝ)
  | cscalarPoint (bloch : Bool) (p : V3 ℝ)

/-- `f_interp_val(p, f, ...)`, mpb/fields.c:654-655: the sizes are those of the field; `inv`: the inversion-symmetric build. -/
def shapeOf (inv : Bool) (d : Dims) : Shape := ⟨d.nx, d.ny, d.nz, inv, d.lastDimSize⟩

/-- The contents of an array. -/
def block (s : St) (b : ℕ) : List ℝ := (List.range (s.size b)).map (s.mem b)

variable (inv : Bool) (size : V3 ℝ)

/-- `rscalar_field_get_point`, mpb/fields.c:779-785. -/
noncomputable def rpoint (r : Ref) (p : V3 ℝ) (s : PSt) : Option PResp :=
  (smob s.st r).bind fun
    | .error _ => some (.obj .dies)
    | .ok f => if f.kind = .rs then (energyPoint (shapeOf inv f.dims) size p (block s.st f.ptr)).map .num else some (.obj .dies)

/-- `cvector_field_get_point_bloch`, `cvector_field_get_point`, mpb/fields.c:787-834. -/
noncomputable def vpoint (bloch : Bool) (r : Ref) (p : V3 ℝ) (s : PSt) : Option PResp :=
  (smob s.st r).bind fun
    | .error _ => some (.obj .dies)
    | .ok f =>
      if f.kind = .cv then
        if bloch then (blochFieldPoint (shapeOf inv f.dims) size p (block s.st f.ptr)).map .vec
        else (fieldPoint (shapeOf inv f.dims) size s.k p (f.letter != 'v') (block s.st f.ptr)).map .vec
      else some (.obj .dies)

/-- `cscalar_field_get_point_bloch`, `cscalar_field_get_point`, mpb/fields.c:836-862. -/
noncomputable def cpoint (bloch : Bool) (r : Ref) (p : V3 ℝ) (s : PSt) : Option PResp :=
  (smob s.st r).bind fun
    | .error _ => some (.obj .dies)
    | .ok f =>
      if f.kind = .cs then
        if bloch then (interpCval (shapeOf inv f.dims) size p (block s.st f.ptr) 0 2).map .cnum
        else if f.letter = 'C' then (Field.cscalarPoint (shapeOf inv f.dims) size s.k p (block s.st f.ptr)).map .cnum
        else (interpCval (shapeOf inv f.dims) size p (block s.st f.ptr) 0 2).map .cnum
      else some (.obj .dies)

/-- The `CHECK(curfield && strchr(letters, curfield_type))` of the commands on the current field, mpb/fields.c:705, 712, 752, 762.  (The letter is never the
terminating zero that `strchr` would find too: it is '-' without a field.)  The sizes are those in `mdata`, which exists when there is a
current field. -/
def cur (letters : List Char) (s : St) : Option (Except Unit (Dims × ℕ)) :=
  match s.curfield with
  | none => some (.error ())
  | some b => if s.letter ∈ letters then
      match s.mdata with
      | none => none
      | some (d, _) => some (.ok (d, b))
    else some (.error ())

/-- `get_energy_point`, mpb/fields.c:703-708. -/
noncomputable def curEnergy (p : V3 ℝ) (s : PSt) : Option PResp :=
  (cur ['D', 'H', 'B', 'R'] s.st).bind fun
    | .error _ => some (.obj .dies)
    | .ok (d, b) => (energyPoint (shapeOf inv d) size p (block s.st b)).map .num

/-- `get_bloch_field_point`, `get_field_point`, mpb/fields.c:710-748. -/
noncomputable def curField (bloch : Bool) (p : V3 ℝ) (s : PSt) : Option PResp :=
  (cur ['d', 'h', 'b', 'e', 'c', 'v'] s.st).bind fun
    | .error _ => some (.obj .dies)
    | .ok (d, b) =>
      if bloch then (blochFieldPoint (shapeOf inv d) size p (block s.st b)).map .vec
      else (fieldPoint (shapeOf inv d) size s.k p (s.st.letter != 'v') (block s.st b)).map .vec

/-- `get_bloch_cscalar_point`, `get_cscalar_point`, mpb/fields.c:750-777. -/
noncomputable def curScalar (bloch : Bool) (p : V3 ℝ) (s : PSt) : Option PResp :=
  (cur ['C'] s.st).bind fun
    | .error _ => some (.obj .dies)
    | .ok (d, b) =>
      if bloch then (interpCval (shapeOf inv d) size p (block s.st b) 0 2).map .cnum
      else if s.st.letter = 'C' then (Field.cscalarPoint (shapeOf inv d) size s.k p (block s.st b)).map .cnum
      else (interpCval (shapeOf inv d) size p (block s.st b) 0 2).map .cnum

/-- One command.  `solve-kpoint` sets `cur_kvector`, mpb/mpb.c:603-630; `init-params` does not. -/
noncomputable def pstep (s : PSt) : PCmd → Option (PSt × PResp)
  | .obj c => (step s.st c).map fun t => (⟨t.1, s.k⟩, .obj t.2)
  | .solve k x => (scratch x s.st).map fun t => (⟨t.1, match t.2 with | .dies => s.k | _ => k⟩, .obj t.2)
  | .rpoint r p => (rpoint inv size r p s).map fun x => (s, x)
  | .vpoint b r p => (vpoint inv size b r p s).map fun x => (s, x)
  | .cpoint b r p => (cpoint inv size b r p s).map fun x => (s, x)
  | .energyPoint p => (curEnergy inv size p s).map fun x => (s, x)
  | .fieldPoint b p => (curField inv size b p s).map fun x => (s, x)
  | .cscalarPoint b p => (curScalar inv size b p s).map fun x => (s, x)

/-- A history with the answers; the program ends at the first error message. -/
noncomputable def prun (s : PSt) : List PCmd → Option (PSt × List PResp)
  | [] => some (s, [])
  | c :: cs => (pstep inv size s c).bind fun
    | (s, .obj .dies) => some (s, [.obj .dies])
    | (s, r) => (prun s cs).map fun t => (t.1, r :: t.2)

end Mpb.Objects

import Verif.Field.PointModel
import Verif.Core.Mem

/-!
# Model of the sums over the cell (energies, averages, integrals)

All these routines run over the stored grid points; in the inversion-symmetric build only half of the last dimension is
stored and most points have to be counted twice, with their mirror image.
-/

namespace Mpb.Field

variable (S : Shape)

/-- `last_dim` (src/maxwell/maxwell.c:65): the last dimension larger than one. -/
def Shape.last : ℕ := if S.nz > 1 then S.nz else if S.ny > 1 then S.ny else S.nx

/-- `other_dims` (src/maxwell/maxwell.c:74). -/
def Shape.other : ℕ := S.nx * S.ny * S.nz / S.last

/-- One iteration of the loop over the stored points: the grid point, the place in the array and the loop counters `j`
(in the serial half-stored loop the last index; with MPI the local y index) and `k`. -/
structure Visit where
  pt : ℕ × ℕ × ℕ
  idx : ℕ
  j : ℕ
  k : ℕ

/-- src/maxwell/xyz_loop.h:17-24,36-50 `LOOP_XYZ` and mpb/field-smob.c:456-464,487-500, without MPI.  `inv` is the
inversion-symmetric build. -/
def visits : List Visit :=
  if S.inv then
    (loop2 S.other S.nlast).map fun t =>
      ⟨if S.nz > 1 then (t.1 / S.ny, t.1 % S.ny, t.2) else if S.ny > 1 then (t.1, t.2, 0) else (t.2, 0, 0),
        t.1 * S.nlast + t.2, t.2, 0⟩
  else
    (loop3 S.nx S.ny S.nz).map fun t => ⟨t, (t.1 * S.ny + t.2.1) * S.nz + t.2.2, t.2.1, t.2.2⟩

/-- The slab of one MPI process. -/
structure Slab where
  y0 : ℕ
  ny : ℕ

/-- The stored size of the third dimension with MPI (`local_n3`, src/maxwell/xyz_loop.h:56). -/
def Shape.n3 : ℕ := if S.inv then (if S.nz > 1 then S.nlast else 1) else S.nz

/-- src/maxwell/xyz_loop.h:25-34,52-63 and mpb/field-smob.c:466-485,502-533, with MPI. -/
def visitsMpi (q : Slab) : List Visit :=
  (loop3 q.ny S.nx S.n3).map fun t => ⟨(t.2.1, t.1 + q.y0, t.2.2), (t.1 * S.nx + t.2.1) * S.n3 + t.2.2, t.1, t.2.2⟩

/-- `last_index != 0 && 2*last_index != last_dim` in the inversion-symmetric build (e.g. mpb/fields.c:282). -/
def Shape.doubled (li : ℤ) : Bool := S.inv && (li != 0) && (2 * li != S.last)

/-- The mirror point (mpb/fields.c:1462-1464, mpb/field-smob.c:583-585). -/
def Shape.mirror (p : ℕ × ℕ × ℕ) : ℕ × ℕ × ℕ :=
  (if p.1 ≠ 0 then S.nx - p.1 else 0, if p.2.1 ≠ 0 then S.ny - p.2.1 else 0, if p.2.2 ≠ 0 then S.nz - p.2.2 else 0)

/-- A loop that adds `g v` for each visited point and `gm v` again for its mirror image when `last_index` says so. -/
def loopSum {E : Type} [AddMonoid E] (V : List Visit) (li : Visit → ℤ) (g gm : Visit → E) : E :=
  V.foldl (fun acc v => if S.doubled (li v) then acc + g v + gm v else acc + g v) 0

/-- The loops over the flat index: `energy_sum` and `comp_sum` of `compute_field_energy_internal`
(mpb/fields.c:239-291), `compute_energy_in_dielectric` (mpb/fields.c:884-906), the averages of `get_epsilon`
(mpb/epsilon.c:440-476), without MPI: `N` points, `last_index = i % last_dim_stored`, each term added once or twice. -/
def flatSum {E : Type} [AddMonoid E] (N : ℕ) (e : ℕ → E) : E :=
  (List.range N).foldl (fun acc i => if S.doubled ((i % S.nlast : ℕ) : ℤ) then acc + e i + e i else acc + e i) 0

/-- The same with MPI: in two dimensions `last_index = i / nx + local_y_start`. -/
def flatSumMpi {E : Type} [AddMonoid E] (q : Slab) (N : ℕ) (e : ℕ → E) : E :=
  (List.range N).foldl (fun acc i =>
    if S.doubled (if S.nz = 1 then ((i / S.nx + q.y0 : ℕ) : ℤ) else ((i % S.nlast : ℕ) : ℤ)) then acc + e i + e i
    else acc + e i) 0

/-- `fft_output_size` without MPI (src/maxwell/maxwell.c:81-86). -/
def Shape.outSize : ℕ := if S.inv then S.other * S.lastDimSize / 2 else S.nx * S.ny * S.nz

/-- `fft_output_size` with MPI (src/maxwell/maxwell.c:147,184,206-209). -/
def Shape.outSizeMpi (q : Slab) : ℕ := S.nx * q.ny * S.n3

/-- `compute_energy_in_dielectric` (mpb/fields.c:868-911), without the factor `Vol/N`: only the points whose epsilon is in
the range. -/
noncomputable def energyInDielectric (N : ℕ) (eps energy : ℕ → ℝ) (lo hi : ℝ) : ℝ := by
  classical
  exact flatSum S N (fun i => if eps i ≥ lo ∧ eps i ≤ hi then energy i else 0)

/-! ## `integrate-fields` -/

/-- A field object: real scalar, complex scalar or complex vector. -/
inductive Fld where
  | rs (f : ℕ → ℝ)
  | cs (f : ℕ → ℂ)
  | cv (f : ℕ → V3 ℂ)

/-- A value handed to the user's function. -/
inductive Item where
  | r (v : ℝ)
  | c (v : ℂ)
  | v (v : V3 ℂ)

/-- mpb/field-smob.c:546-558: the value of a field at the stored point. -/
def Fld.item (f : Fld) (i : ℕ) : Item :=
  match f with
  | .rs f => .r (f i)
  | .cs f => .c (f i)
  | .cv f => .v (f i)

/-- Complex conjugation of a vector (mpb/field-smob.c:395-402). -/
noncomputable def conj3 (v : V3 ℂ) : V3 ℂ := V3.map (starRingEnd ℂ) v

/-- mpb/field-smob.c:592-610: the value used at the mirror point: vectors are conjugated, complex scalars are not. -/
noncomputable def Fld.itemMirror (f : Fld) (i : ℕ) : Item :=
  match f with
  | .rs f => .r (f i)
  | .cs f => .c (f i)
  | .cv f => .v (conj3 (f i))

/-- The sum in `integrate_fieldL` (mpb/field-smob.c:405-631) without MPI: `f` is the user's function of the grid point
(i.e. its position) and the field values; `last_index = j`.  The factor `Vol/(n1 n2 n3)` is left out. -/
noncomputable def integrateFields (fields : List Fld) (f : ℕ × ℕ × ℕ → List Item → ℂ) : ℂ :=
  loopSum S (visits S) (fun v => v.j) (fun v => f v.pt (fields.map (·.item v.idx)))
    (fun v => f (S.mirror v.pt) (fields.map (·.itemMirror v.idx)))

/-- The same on one MPI process. -/
noncomputable def integrateFieldsMpi (q : Slab) (fields : List Fld) (f : ℕ × ℕ × ℕ → List Item → ℂ) : ℂ :=
  loopSum S (visitsMpi S q) (fun v => if S.nz = 1 then ((v.j + q.y0 : ℕ) : ℤ) else v.k)
    (fun v => f v.pt (fields.map (·.item v.idx))) (fun v => f (S.mirror v.pt) (fields.map (·.itemMirror v.idx)))

/-! ## The routines written with `LOOP_XYZ` that use `j` and `k`

`compute_energy_in_object_list` (mpb/fields.c:1304-1367), `compute_field_integral` (mpb/fields.c:1372-1524) and
`material_grids_addgradient` (mpb/material_grid.c:386-455) declare `int i, j, k` and test `last_index = j` (with MPI `j +
local_y_start` or `k`), but the loop macro they use counts with `i1_, i2_` (`i2_`, `i1`, `i3` with MPI) and never assigns `j`
or `k`: both are uninitialised.  In the model they are parameters `j0`, `k0`: whatever happens to be there. -/

/-- The summation of these routines without MPI, with the value `g point idx mirrored?` for each point. -/
def xyzSum {E : Type} [AddMonoid E] (j0 : ℤ) (g : ℕ × ℕ × ℕ → ℕ → Bool → E) : E :=
  loopSum S (visits S) (fun _ => j0) (fun v => g v.pt v.idx false) (fun v => g (S.mirror v.pt) v.idx true)

/-- … with MPI. -/
def xyzSumMpi {E : Type} [AddMonoid E] (q : Slab) (j0 k0 : ℤ) (g : ℕ × ℕ × ℕ → ℕ → Bool → E) : E :=
  loopSum S (visitsMpi S q) (fun _ => if S.nz = 1 then j0 + q.y0 else k0) (fun v => g v.pt v.idx false)
    (fun v => g (S.mirror v.pt) v.idx true)

/-- `compute_energy_in_object_list`, without the factor: the energy at the points inside the objects (`inside` is decided
at the stored point only; the second addition repeats the first). -/
def energyInObjects (j0 : ℤ) (inside : ℕ × ℕ × ℕ → Bool) (energy : ℕ → ℝ) : ℝ :=
  loopSum S (visits S) (fun _ => j0) (fun v => if inside v.pt then energy v.idx else 0)
    (fun v => if inside v.pt then energy v.idx else 0)

/-- `compute_field_integral` of a vector field, without the factor: `f` is the user's function of the point and the
field; the Bloch phase is applied at the point by `phase`. -/
noncomputable def fieldIntegral (j0 : ℤ) (phase : ℕ × ℕ × ℕ → ℂ) (F : ℕ → V3 ℂ) (f : ℕ × ℕ × ℕ → V3 ℂ → ℂ) : ℂ :=
  xyzSum S j0 (fun p i m => f p (V3.map (· * phase p) (if m then conj3 (F i) else F i)))

/-- `compute_field_integral` of an energy density. -/
noncomputable def energyIntegral (j0 : ℤ) (energy : ℕ → ℝ) (f : ℕ × ℕ × ℕ → ℝ → ℝ) : ℝ :=
  xyzSum S j0 (fun p i _ => f p (energy i))

end Mpb.Field

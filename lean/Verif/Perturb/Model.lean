import Verif.Flux.Model
import Verif.Invariance.Model
import Verif.Epsilon.Model

/-!
# Model: energy in a range of dielectric constants and in a list of objects, with the factor and the check

The sums are those of `Mpb.Field` (`energyInDielectric`, `energyInObjects`); this file adds what stands before and after them.
-/

namespace Mpb.Perturb
open Mpb.Maxwell Mpb.Field

/-- `strchr("DHBR", curfield_type)` with a field loaded, mpb/fields.c:874, 1316; `none` is `curfield == NULL`.  (`strchr` finds the
terminating zero too; `curfield_type` is never zero.) -/
def isDensity (curfield : Option (Char × (ℕ → ℝ))) : Option (ℕ → ℝ) :=
  match curfield with
  | none => none
  | some (ty, e) => if ty ∈ ['D', 'H', 'B', 'R'] then some e else none

/-- `epsilon >= eps_low && epsilon <= eps_high` with `epsilon = mean_medium_from_matrix(mdata->eps_inv + i)`, mpb/fields.c:886-887.  A division by
zero in it gives an infinite value, outside every range of numbers. -/
def InRange (heev : Epsilon.Heev) (epsInv : HMat) (lo hi : ℝ) : Prop := ∃ e, Epsilon.meanMedium heev epsInv = some e ∧ e ≥ lo ∧ e ≤ hi

open Classical in
/-- `compute_energy_in_dielectric`, mpb/fields.c:868-911 (serial).  `N` is `fft_output_size` and `HN` is `H.N`. -/
noncomputable def computeEnergyInDielectric (heev : Epsilon.Heev) (S : Shape) (N HN : ℕ) (Vol : ℝ) (epsInv : ℕ → HMat)
    (curfield : Option (Char × (ℕ → ℝ))) (lo hi : ℝ) : ℝ :=
  match isDensity curfield with
  | none => 0
  | some e => flatSum S N (fun i => if InRange heev (epsInv i) lo hi then e i else 0) * (Vol / HN)

/-- A geometric object as seen by the loop: `contains` is `point_in_periodic_fixed_objectp` (libctl), `self` says that the material is
`MATERIAL_TYPE_SELF` ("nothing"). -/
structure Body where
  contains : V3 ℝ → Bool
  self : Bool

/-- The loop over the objects, mpb/fields.c:1343-1348: from the last to the first, up to the first that contains the point. -/
def insideList (objects : List Body) (p : V3 ℝ) : Bool :=
  match objects.reverse.find? fun o => o.contains p with
  | none => false
  | some o => !o.self

/-- The point of a grid index, mpb/fields.c:1330-1341. -/
noncomputable def gridPoint (S : Shape) (size : V3 ℝ) (i : ℕ × ℕ × ℕ) : V3 ℝ :=
  ⟨i.1 * (size.x / S.nx) - (if S.nx ≤ 1 then 0 else size.x * 0.5), i.2.1 * (size.y / S.ny) - (if S.ny ≤ 1 then 0 else size.y * 0.5),
    i.2.2 * (size.z / S.nz) - (if S.nz ≤ 1 then 0 else size.z * 0.5)⟩

/-- `compute_energy_in_object_list`, mpb/fields.c:1304-1367 (serial).  `j0` is the uninitialised `j` (only used in the
inversion-symmetric build). -/
noncomputable def computeEnergyInObjects (S : Shape) (size : V3 ℝ) (HN : ℕ) (Vol : ℝ) (j0 : ℤ) (curfield : Option (Char × (ℕ → ℝ)))
    (objects : List Body) : ℝ :=
  match isDensity curfield with
  | none => 0
  | some e => energyInObjects S j0 (fun i => insideList objects (gridPoint S size i)) e * (Vol / HN)

/-- What is loaded after `get-dfield` and `compute-field-energy` (mpb/fields.c:52-106, 296-350: the type becomes upper case). -/
noncomputable def afterD (d : OpData) (p : ℕ) (H W0 buf buf2 : ℕ → ℂ) (freqs : ℕ → ℝ) (Vol : ℝ) (b : ℕ) : Option (Char × (ℕ → ℝ)) :=
  some ('d'.toUpper, Flux.densityOf d 'd' (getD d p H W0 buf buf2 freqs Vol b))

/-- What is loaded after `get-bfield` and `compute-field-energy`. -/
noncomputable def afterB (d : OpData) (p : ℕ) (H buf : ℕ → ℂ) (Vol : ℝ) (b : ℕ) : Option (Char × (ℕ → ℝ)) :=
  some ('b'.toUpper, Flux.densityOf d 'b' (getB d p H buf Vol b))

end Mpb.Perturb

import Verif.Objects.Model
import Verif.Field.EnergyModel

/-!
# Model of `get-poynting` and `get-tot-pwr` (mpb/mpb.scm.in:753-785)

Both are Scheme programs made of commands whose model is in `Verif.Objects.Model`.  A command that loads or computes a field is `.fill`
with the letter of the field and the contents of the array; what the contents are is modelled in `Verif.Field.EnergyModel` and here.
Complex build, one process, exact arithmetic.
-/

namespace Mpb.Flux

open Mpb.Maxwell Mpb.Field Mpb.Objects

/-- `get_efield`, mpb/fields.c:209-213: `get_dfield`, then `get_efield_from_dfield` (mpb/fields.c:195-207), which multiplies by `eps_inv`
in place. -/
noncomputable def getE (d : OpData) (p : ℕ) (H W0 buf buf2 : ℕ → ℂ) (freqs : ℕ → ℝ) (Vol : ℝ) (b : ℕ) : ℕ → ℂ :=
  eFromD d.N 1 d.epsInv (getD d p H W0 buf buf2 freqs Vol b)

/-- The function given to `field-map!` in `get-poynting`, mpb/mpb.scm.in:758, with libctl's `vector3-conj` and `vector3-cross`.  Other
argument lists do not occur (the value given here for them is arbitrary). -/
noncomputable def conjCross : List Item → Item
  | [.v e, .v h] => .v (V3.cross (conj3 e) h)
  | _ => .v 0

/-- The function given to `field-map!` in `get-tot-pwr`, mpb/mpb.scm.in:780.  Other argument lists do not occur. -/
noncomputable def addItems : List Item → Item
  | [.r x, .r y] => .r (x + y)
  | _ => .r 0

/-- `get-poynting`, mpb/mpb.scm.in:753-761.  `D`, `E`, `H` are the contents of the array after `get_dfield`, `get_efield_from_dfield`,
`get_hfield`; `n` is the number of field variables that exist, so that the copy (`field-copy`, mpb/mpb.scm.in:274) is number `n`. -/
noncomputable def poyntingCmds (n : ℕ) (D E H : ℕ → ℝ) : List Cmd :=
  [.fill 'd' D, .fill 'e' E, .fieldMake .cur, .set (.obj n) .cur, .fill 'h' H, .map .cur conjCross [.obj n, .cur], .nonbloch .cur]

/-- `get-tot-pwr`, mpb/mpb.scm.in:773-783.  `D`, `B` are the contents of the array after `get_dfield`, `get_bfield`; `De`, `Be` those after
`compute_field_energy`, which leaves the letters 'D', 'B' (`toupper`, mpb/fields.c:303). -/
noncomputable def totPwrCmds (n : ℕ) (D De B Be : ℕ → ℝ) : List Cmd :=
  [.fill 'd' D, .fill 'D' De, .fieldMake .cur, .set (.obj n) .cur, .make .rs .cur, .fill 'b' B, .fill 'B' Be,
    .map (.obj (n + 1)) addItems [.obj n, .cur], .load (.obj (n + 1))]

/-- The contents of the array after `compute_field_energy` of a field of type `ty`. -/
noncomputable def densityOf (d : OpData) (ty : Char) (F : ℕ → ℂ) : ℕ → ℝ :=
  (energyLoop (energyField ty d.epsInv d.muInv) (fun _ => false) d.N (toReals F)).mem

end Mpb.Flux

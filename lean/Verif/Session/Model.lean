import Mathlib.Data.Int.Notation
import Mathlib.Tactic.Common

/-!
# Model of the global field state behind the Guile commands (mpb/mpb.c, mpb/fields.c, mpb/epsilon.c, mpb/field-smob.c)

The commands share the globals `mdata`, `H`, `freqs`, `kpoint_index`, `curfield`, `curfield_band`, `curfield_type`.
`curfield` is always NULL or an alias of `mdata->fft_data` (field-smob.c:129-170, fields.c:70, 127, 173, epsilon.c:426), so it
is modelled as a flag.  What the FFT buffer holds is recorded symbolically as a `Data` value: the numbers themselves are the
subject of the models in `Verif/Field`.  A step has one of three outcomes: `none` (the C program reads or writes memory it must
not: NULL pointer or index out of range), or a new state with a response.  A failing `CHECK` ends the program with an error message; it is
modelled as the response `err` with unchanged state.
-/

namespace Mpb.Session

/-- How a density was formed from a vector field: with ε⁻¹, with μ⁻¹ or plainly (fields.c:247-255). -/
inductive Weight | epsInv | muInv | one
  deriving DecidableEq, Repr

/-- What an array in memory holds. -/
inductive Data
  /-- not a field: uninitialised or overwritten scratch space -/
  | junk
  /-- the field `c` (`d`, `h`, `b`) of a band, as of solution number `s` -/
  | mode (c : Char) (band : ℕ) (s : ℕ)
  /-- a stored field with its type character and a name -/
  | user (c : Char) (n : ℕ)
  | eps | mu
  /-- ε⁻¹ applied to the field -/
  | eOf (x : Data)
  /-- `|field|²` with a weight -/
  | dens (w : Weight) (x : Data)
  | div (x : Data)
  | phased (x : Data)
  deriving DecidableEq, Repr

/-- `mdata` and `H.p` after init-params. -/
structure Mdata where
  mu : Bool
  p : ℕ
  deriving DecidableEq, Repr

/-- The globals (mpb/mpb.c:239-258): `k` is `kpoint_index`, `nb` the input variable `num_bands`, `freqs` the length of the array
`freqs.items`, `nsol` counts the solutions that `H` has held, `sol` tells whether there was one since init-params (neither is in the C program). -/
structure St where
  md : Option Mdata := none
  k : ℤ := 0
  nb : ℕ := 1
  freqs : ℕ := 0
  nsol : ℕ := 0
  sol : Bool := false
  cur : Bool := false
  band : ℤ := 0
  type : Char := '-'
  buf : Data := .junk
  deriving DecidableEq, Repr

/-- What the user sees of a command. -/
inductive Resp
  /-- an error message -/
  | err
  | ok
  /-- an output file: the type character, the k and band index in its name, and its contents -/
  | file (c : Char) (k : ℤ) (band : ℤ) (x : Data)
  /-- a number computed from a field taken to have type `c`, of the given band -/
  | val (c : Char) (x : Data)
  /-- an eigenvector multiplied by a phase computed from the field `x` -/
  | phase (band : ℤ) (x : Data)
  /-- an error message, and an uninitialised number as the value -/
  | garbage
  deriving DecidableEq, Repr

/-- The commands that only read the current field, with the string of type characters they accept:
compute-energy-in-dielectric, compute-energy-in-object-list, get-energy-point, compute-energy-integral ("DHBR"; fields.c:874, 1314,
725, 1528), get-bloch-field-point, get-field-point ("dhbecv"; fields.c:732), get-(bloch-)cscalar-point ("C"; fields.c:777, 787),
compute-field-integral ("dhbeDHBRcv"; fields.c:1384), transformed-overlap and compute-symmetry ("db"; transform.c:59). -/
inductive Reader | energy | vector | cscalar | integral | overlap
  deriving DecidableEq, Repr

def Reader.types : Reader → List Char
  | .energy => "DHBR".toList
  | .vector => "dhbecv".toList
  | .cscalar => "C".toList
  | .integral => "dhbeDHBRcv".toList
  | .overlap => "db".toList

inductive Cmd
  | setNumBands (n : ℕ)
  | init (mu : Bool)
  | setParity
  | setKIndex (n : ℤ)
  | solve
  | getD (b : ℤ) | getH (b : ℤ) | getB (b : ℤ) | getE (b : ℤ) | eFromD
  | getEps | getMu
  | load (c : Char) (n : ℕ)
  | nonBloch
  | energy | squared | divergence | fixPhase | output
  | read (r : Reader)
  | groupVel
  | dotEig
  | setEig
  | symmetry (b : ℤ) | groupVel1 (b : ℤ) | dominant (b : ℤ) | epsPoint
  deriving DecidableEq, Repr

/-- Characters of a complex vector, a real scalar and a complex scalar field (field-smob.c:141-152; 'm' is missing there, see `load`). -/
def vecChars : List Char := "dhbecv".toList
def rsChars : List Char := "DHBnmR".toList
def csChars : List Char := ['C']

/-- `get_dfield`, `get_hfield`, `get_bfield` (mpb/fields.c:52-192): the last step reads `freqs.items[which_band-1]` for D only. -/
def getField (c : Char) (b : ℤ) (s : St) : Option (St × Resp) :=
  match s.md with
  | none => some (s, .err)
  | some m =>
    if s.k = 0 then some (s, .err)
    else if b < 1 ∨ b > m.p then some (s, .err)
    else if c = 'd' ∧ ¬ b ≤ s.freqs then none
    else some ({ s with cur := true, band := b, type := c, buf := .mode c b.toNat s.nsol }, .ok)

/-- `get_efield_from_dfield` (mpb/fields.c:194-204). -/
def eFromD (s : St) : Option (St × Resp) :=
  if !s.cur ∨ s.type ≠ 'd' then some (s, .err)
  else match s.md with
    | none => some (s, .err)
    | some _ => some ({ s with type := 'e', buf := .eOf s.buf }, .ok)

/-- `get_efield` (mpb/fields.c:206-210): both functions return void; the messages of either are seen. -/
def getE (b : ℤ) (s : St) : Option (St × Resp) :=
  (getField 'd' b s).bind fun r => (eFromD r.1).map fun q => (q.1, if r.2 = .ok ∧ q.2 = .ok then .ok else .err)

/-- `curfield_reset` (mpb/mpb.c:250). -/
def reset (s : St) : St := { s with cur := false, type := '-' }

/-- The weight used by `compute_field_energy_internal` (mpb/fields.c:247-255). -/
def weight (c : Char) (mu : Bool) : Weight :=
  if c = 'd' then .epsInv else if c = 'b' ∧ mu then .muInv else .one

/-- `compute_field_energy_internal` (mpb/fields.c:227-305): dereferences `mdata` and `curfield`. -/
def energyInternal (s : St) : Option St :=
  match s.md with
  | none => none
  | some m => if s.cur then some { s with type := s.type.toUpper, buf := .dens (weight s.type m.mu) s.buf } else none

/-- `compute_field_energy` (mpb/fields.c:311-350). -/
def energy (s : St) : Option (St × Resp) :=
  if !s.cur ∨ s.type ∉ "dhb".toList then some (s, .err)
  else match s.md with
    | none => none
    | some m =>
      if s.type = 'h' ∧ m.mu then some (s, .err)
      else (energyInternal s).map fun s' => (s', .val s'.type s'.buf)

/-- `compute_field_squared` (mpb/fields.c:354-365): the test only prints a message. -/
def squared (s : St) : Option (St × Resp) :=
  let r : Resp := if !s.cur ∨ s.type ∉ vecChars then .err else .ok
  (energyInternal { s with type := 'c' }).map fun s' => ({ s' with type := 'R' }, r)

/-- `compute_field_divergence` (mpb/fields.c:372-419): `mdata->fft_data` is read before any test. -/
def divergence (s : St) : Option (St × Resp) :=
  match s.md with
  | none => none
  | some _ =>
    if !s.cur ∨ s.type ∉ "dhbec".toList then some (s, .err)
    else some ({ s with type := 'C', buf := .div s.buf }, .ok)

/-- `fix_field_phase` (mpb/fields.c:441-545): band `curfield_band` of the eigenvectors is multiplied by the phase; the column `-1` or one
past the last is outside of the array (`H.data[i*H.p + curfield_band - 1]` with `i = 0`). -/
def fixPhase (s : St) : Option (St × Resp) :=
  if !s.cur ∨ s.type ∉ vecChars then some (s, .err)
  else match s.md with
    | none => none
    | some m =>
      if s.band < 1 ∨ s.band > m.p then none
      else some ({ s with buf := .phased s.buf }, .phase s.band s.buf)

/-- `output_field_to_file` (mpb/fields.c:1000-1296): except for epsilon and mu the description contains `freqs.items[curfield_band-1]`
(fields.c:1113, 1166, 1226).  The field is gone afterwards. -/
def output (s : St) : Option (St × Resp) :=
  if !s.cur then some (s, .err)
  else match s.md with
    | none => none
    | some _ =>
      if s.type = 'n' ∨ s.type = 'm' then some ({ reset s with buf := .junk }, .file s.type 0 0 s.buf)
      else if s.type ∈ vecChars ++ csChars ++ rsChars then
        if s.band < 1 ∨ ¬ s.band ≤ s.freqs then none
        else some ({ reset s with buf := .junk }, .file s.type s.k s.band s.buf)
      else some (reset s, .err)

/-- `field_load` (mpb/field-smob.c:319-329, 284-309, 164-170) of a stored field of the same grid; `curfield_band` is not set.
A destination that is not loaded gets `mdata->fft_data` as its memory (field-smob.c:153-160).  Types other than those of a field are
refused (`CHECK(fs->type_char != '-')`). -/
def load (c : Char) (n : ℕ) (s : St) : Option (St × Resp) :=
  match s.md with
  | none => some (s, .err)
  | some _ =>
    if c ∈ vecChars ++ csChars ++ rsChars then some ({ s with cur := true, type := c, buf := .user c n }, .ok)
    else some (s, .err)

/-- `cvector_field_nonblochB` of the current field (mpb/field-smob.c:240-246): the type becomes 'v' whatever it was (an unloaded field:
`assert_field_smob` fails, field-smob.c:159, 187). -/
def nonBloch (s : St) : Option (St × Resp) :=
  match s.md with
  | none => some (s, .err)
  | some _ =>
    if s.type ∈ vecChars ++ csChars ++ "DHBnR".toList then some ({ s with type := 'v' }, .ok) else some (s, .err)

/-- The commands that read the field. -/
def read (r : Reader) (s : St) : Option (St × Resp) :=
  if !s.cur ∨ s.type ∉ r.types then some (s, .err)
  else match s.md with
    | none => none
    | some _ => some (s, .val s.type s.buf)

/-- `compute_group_velocity_component` (mpb/mpb.c:870-947): the field is reset before the tests; the FFT buffer is used as scratch space.
(`freqs.items[i]` is read for all `i < num_bands`.) -/
def groupVel (s : St) : Option (St × Resp) :=
  match s.md with
  | none => some (reset s, .err)
  | some _ =>
    if s.k = 0 then some (reset s, .err)
    else if s.nb ≤ s.freqs then some ({ reset s with buf := .junk }, .ok) else none

/-- `solve_kpoint` (mpb/mpb.c:586-842). -/
def solve (s : St) : Option (St × Resp) :=
  let s := reset s
  if s.nb = 0 then some (s, .ok)
  else match s.md with
    | none => some (s, .err)
    | some _ => some ({ s with buf := .junk, freqs := s.nb, nsol := s.nsol + 1, sol := true, k := s.k + 1 }, .ok)

/-- `compute_symmetry` (mpb/transform.c:190-197): `get_bfield` returns void, so its failure is not noticed; the response is that of
`transformed_overlap` (transform.c:59-64), the message of `get_bfield` is not recorded. -/
def symmetry (b : ℤ) (s : St) : Option (St × Resp) :=
  (getField 'b' b s).bind fun r => read .overlap r.1

/-- `compute_1_group_velocity_component` (mpb/mpb.c:950-992): the field is reset before the tests, which return the uninitialised `group_v`; the
band is not tested: column `b - 1` of `H` (all rows, so also past the end) and `freqs.items[b-1]` are read.  (`eigensolver-nwork` at least 2.) -/
def groupVel1 (b : ℤ) (s : St) : Option (St × Resp) :=
  match s.md with
  | none => some (reset s, .garbage)
  | some m =>
    if s.k = 0 then some (reset s, .garbage)
    else if b < 1 ∨ b > m.p ∨ ¬ b ≤ s.freqs then none
    else some ({ reset s with buf := .junk }, .val 'g' (.mode 'g' b.toNat s.nsol))

/-- `get_dominant_planewave` (mpb/mpb.c:1017-1023, src/maxwell/maxwell.c:312-355): tests for init-params and the band, not for a solution. -/
def dominant (b : ℤ) (s : St) : Option (St × Resp) :=
  match s.md with
  | none => some (s, .err)
  | some m =>
    if b < 1 ∨ b > m.p then some (s, .err)
    else some (s, .val 'k' (if s.sol then .mode 'k' b.toNat s.nsol else .junk))

/-- `get_epsilon_point`, `get_epsilon_inverse_tensor_point` (mpb/fields.c:677-700, `interp_eps_inv`): `mdata` is used without a test. -/
def epsPoint (s : St) : Option (St × Resp) :=
  match s.md with
  | none => none
  | some _ => some (s, .val 'n' .eps)

/-- One command. -/
def step (s : St) : Cmd → Option (St × Resp)
  | .setNumBands n => some ({ s with nb := n }, .ok)
  -- init_params (mpb/mpb.c:385-532): a new FFT buffer, set_parity resets `kpoint_index`; `curfield` is NULL before the first call
  | .init mu => some ({ reset s with md := some ⟨mu, s.nb⟩, k := 0, buf := .junk, sol := false }, .ok)
  -- set_parity (mpb/mpb.c:349-369)
  | .setParity => match s.md with
    | none => some (s, .err)
    | some _ => some ({ s with k := 0 }, .ok)
  -- set_kpoint_index (mpb/mpb.c:316-319)
  | .setKIndex n => some ({ s with k := n }, .ok)
  | .solve => solve s
  | .getD b => getField 'd' b s
  | .getH b => getField 'h' b s
  | .getB b => getField 'b' b s
  | .getE b => getE b s
  | .eFromD => eFromD s
  -- get_epsilon, get_mu (mpb/epsilon.c:413-497)
  | .getEps => match s.md with
    | none => some (s, .err)
    | some _ => some ({ s with cur := true, band := 0, type := 'n', buf := .eps }, .ok)
  | .getMu => match s.md with
    | none => some (s, .err)
    | some _ => some ({ s with cur := true, band := 0, type := 'm', buf := .mu }, .ok)
  | .load c n => load c n s
  | .nonBloch => nonBloch s
  | .energy => energy s
  | .squared => squared s
  | .divergence => divergence s
  | .fixPhase => fixPhase s
  | .output => output s
  | .read r => read r s
  | .groupVel => groupVel s
  -- dot_eigenvectors (mpb/matrix-smob.c:287-333): with mu the FFT buffer is scratch space
  | .dotEig => match s.md with
    | none => some (s, .err)
    | some m => some ({ s with buf := if m.mu then .junk else s.buf }, .ok)
  -- set_eigenvectors, scale_eigenvector, load_eigenvectors (mpb/matrix-smob.c:276-284, 335-349, 377-383)
  | .setEig => match s.md with
    | none => some (s, .err)
    | some _ => some ({ reset s with nsol := s.nsol + 1 }, .ok)
  | .symmetry b => symmetry b s
  | .groupVel1 b => groupVel1 b s
  | .dominant b => dominant b s
  | .epsPoint => epsPoint s

/-- A history of commands from the start of the program: the responses, or `none` if the program crashes. -/
def run (s : St) : List Cmd → Option (St × List Resp)
  | [] => some (s, [])
  | c :: cs => (step s c).bind fun r => (run r.1 cs).map fun q => (q.1, r.2 :: q.2)

end Mpb.Session

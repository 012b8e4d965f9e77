import Mathlib.Data.Nat.Digits.Defs

/-!
# Model of the names of output files (mpb/fields.c, mpb/mpb.c)

Strings are lists of characters without the terminating 0.  A buffer is described by its size; a string fits if its length is below it.
-/

namespace Mpb.Names

/-- The digits `%d` prints for a number that is not negative. -/
def dec (n : ℕ) : List Char := if n = 0 then ['0'] else (Nat.digits 10 n).reverse.map fun d => Char.ofNat (48 + d)

/-- `%d`. -/
def fmtD (z : ℤ) : List Char := if z < 0 then '-' :: dec z.natAbs else dec z.natAbs

/-- `%02d`: at least two characters, filled with zeros (a negative number has at least two characters). -/
def fmt02 (z : ℤ) : List Char := if z < 0 then '-' :: dec z.natAbs else if z < 10 then '0' :: dec z.natAbs else dec z.natAbs

/-- `parity_string`, mpb/mpb.c:325-338; `twoD` is `nz == 1`. -/
def parityString (parity : ℕ) (twoD : Bool) : List Char :=
  (if parity.testBit 0 then (if twoD then "te".toList else "zeven".toList)
   else if parity.testBit 1 then (if twoD then "tm".toList else "zodd".toList) else []) ++
  (if parity.testBit 2 then "yeven".toList else if parity.testBit 3 then "yodd".toList else [])

/-- `fix_fname`, mpb/fields.c:919-935: the new string. -/
def fixFname (fname pre : List Char) (parity : ℕ) (twoD : Bool) (paritySuffix : Bool) : List Char :=
  pre ++ fname ++ (if paritySuffix ∧ parity ≠ 0 then '.' :: parityString parity twoD else [])

/-- The size of its buffer, mpb/fields.c:923-925. -/
def fixFnameSize (fname pre : List Char) : ℕ := fname.length + pre.length + 20

/-- The component's suffix, mpb/fields.c:1106-1110. -/
def compStr (comp : ℤ) : List Char := if comp ≥ 0 then ['.', Char.ofNat (120 + comp.toNat)] else []

/-- `tolower` for the field types it is used on, mpb/fields.c:1222. -/
def toLower (c : Char) : Char := if c = 'D' then 'd' else if c = 'H' then 'h' else if c = 'B' then 'b' else if c = 'R' then 'r' else c

/-- `.k%02d.b%02d`. -/
def kb (k b : ℤ) : List Char := ".k".toList ++ fmt02 k ++ ".b".toList ++ fmt02 b

/-- `fname`, mpb/fields.c:1104-1110, 1162-1163, 1211-1223, for the field type `t`; `none`: "unknown field type!". -/
def fname (t : Char) (k b comp : ℤ) : Option (List Char) :=
  if t ∈ ['d', 'h', 'b', 'e', 'c', 'v'] then some (t :: kb k b ++ compStr comp)
  else if t ∈ ['C'] then some (t :: kb k b)
  else if t ∈ ['D', 'H', 'B', 'n', 'm', 'R'] then
    if t = 'n' then some "epsilon".toList
    else if t = 'm' then some "mu".toList
    else some (toLower t :: "pwr".toList ++ kb k b)
  else none

/-- The name of the file `output_field_to_file` creates, mpb/fields.c:1104-1230 (`matrixio_create` adds an extension). -/
def outName (t : Char) (k b comp : ℤ) (pre : List Char) (parity : ℕ) (twoD : Bool) : Option (List Char) :=
  (fname t k b comp).map fun f => fixFname f pre parity twoD (t ≠ 'n' ∧ t ≠ 'm')

/-- `description`, mpb/fields.c:1111-1114, 1164-1166, 1212-1227; `g` is what `%g` prints for the frequency. -/
def description (t : Char) (k b : ℤ) (g : List Char) : List Char :=
  if t = 'n' then "dielectric function, epsilon".toList
  else if t = 'm' then "permeability mu".toList
  else if t ∈ ['D', 'H', 'B', 'R'] then t :: " field energy density, kpoint ".toList ++ fmtD k ++ ", band ".toList ++ fmtD b ++ ", freq=".toList ++ g
  else t :: " field, kpoint ".toList ++ fmtD k ++ ", band ".toList ++ fmtD b ++ ", freq=".toList ++ g

/-- A field kept in a Scheme variable (mpb/field-smob.h): its type and data.  It does not keep its band. -/
structure Smob (F : Type) where
  type : Char
  data : F

/-- The current field: `curfield_type`, `curfield_band`, the data. -/
structure Cur (F : Type) where
  type : Char
  band : ℤ
  data : F

/-- `get_dfield` (mpb/fields.c:71-72; the same for the other fields at 128-129, 174-175). -/
def getField {F : Type} (type : Char) (band : ℤ) (data : F) (_ : Option (Cur F)) : Option (Cur F) := some ⟨type, band, data⟩

/-- `(field-copy cur-field)`: `field-set!` copies the data and the type (mpb/field-smob.c:283-309). -/
def copyCur {F : Type} (c : Cur F) : Smob F := ⟨c.type, c.data⟩

/-- `field-load` (mpb/field-smob.c:164-170, 283-331): type and data are replaced, `curfield_band` is not. -/
def fieldLoad {F : Type} (s : Smob F) (c : Cur F) : Cur F := { c with type := s.type, data := s.data }

end Mpb.Names

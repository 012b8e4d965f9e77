import Verif.Field.SumModel

/-!
# Model of field variables (mpb/field-smob.c)

`field-make`, `rscalar-field-make`, `cscalar-field-make`, `cvector-field-make`, `cvector-field-nonbloch!`, `fields-conform?`, `field-set!`,
`field-load`, `field-map!` and the predefined variable `cur-field`.  One process (with MPI every process runs the same on its part of the
grid, nothing is communicated).  Memory: numbered blocks of reals with their sizes; the union `f` of `field_smob` is a block number, and
complex numbers are two reals.  Every access is checked against the size of the block; an access outside is the outcome `none`
(undefined behaviour).  Field variables are never freed in the model (the garbage collector frees those that cannot be reached).
-/

namespace Mpb.Objects

open Mpb.Field

/-- The dimensions in a `field_smob`, mpb/field-smob.h:38-40. -/
structure Dims where
  nx : ℕ
  ny : ℕ
  nz : ℕ
  N : ℕ
  localNy : ℕ
  localYStart : ℕ
  lastDim : ℕ
  lastDimSize : ℕ
  otherDims : ℕ
  deriving DecidableEq

/-- `field_smob_type`, mpb/field-smob.h:27-29. -/
inductive Kind | rs | cv | cs
  deriving DecidableEq

/-- The number of reals at a grid point. -/
def Kind.width : Kind → ℕ
  | .rs => 1
  | .cv => 6
  | .cs => 2

/-- `field_smob`, mpb/field-smob.h:31-41. -/
structure Smob where
  kind : Kind
  letter : Char
  dims : Dims
  ptr : ℕ

/-- The globals: the dimensions in `mdata` with the block of `mdata->fft_data`; `curfield` (`NULL` or a block), `curfield_type`; the memory;
the number of the next block; the field variables. -/
structure St where
  mdata : Option (Dims × ℕ)
  curfield : Option ℕ
  letter : Char
  mem : ℕ → ℕ → ℝ
  size : ℕ → ℕ
  next : ℕ
  objs : List Smob

/-- An argument of a command: `cur-field` or a field variable. -/
inductive Ref | cur | obj (n : ℕ)
  deriving DecidableEq

/-- The user's view: an error message that ends the program; nothing; a new field variable; a boolean; a value together with the letter of the
field (which decides about the Bloch phase and the name of an output file). -/
inductive Resp
  | dies
  | ok
  | field (n : ℕ)
  | bool (b : Bool)
  | item (c : Char) (x : Item)

def rd (s : St) (b i : ℕ) : Option ℝ := if i < s.size b then some (s.mem b i) else none

def wr (s : St) (b i : ℕ) (x : ℝ) : Option St :=
  if i < s.size b then some { s with mem := Function.update s.mem b (Function.update (s.mem b) i x) } else none

/-- The letters in `update_curfield_smob`, mpb/field-smob.c:142-152. -/
def kindOf (c : Char) : Option Kind :=
  if c ∈ ['d', 'h', 'b', 'e', 'c', 'v'] then some .cv
  else if c ∈ ['D', 'H', 'B', 'n', 'R'] then some .rs
  else if c ∈ ['C'] then some .cs
  else none

/-- `assert_field_smob(cur-field)`: `update_curfield_smob`, mpb/field-smob.c:131-162, which dies without `mdata` and returns 0 (so that
`assert_field_smob` dies) for an unknown letter.  `curfield` is not `NULL` when the letter is known (it is set together with it,
fields.c, epsilon.c:428-429; `curfield_reset`, mpb.c:250): otherwise undefined. -/
def curSmob (s : St) : Option (Except Unit Smob) :=
  match s.mdata with
  | none => some (.error ())
  | some (d, _) =>
    match kindOf s.letter with
    | none => some (.error ())
    | some k =>
      match s.curfield with
      | none => none
      | some b => some (.ok ⟨k, s.letter, d, b⟩)

/-- `assert_field_smob`, mpb/field-smob.c:185-190.  A number that is not one of a field variable is another Scheme object. -/
def smob (s : St) : Ref → Option (Except Unit Smob)
  | .cur => curSmob s
  | .obj n => match s.objs[n]? with
    | none => some (.error ())
    | some f => some (.ok f)

/-- `fields_conform`, mpb/field-smob.c:266-273. -/
def conform (f g : Smob) : Bool :=
  f.dims.nx == g.dims.nx && f.dims.ny == g.dims.ny && f.dims.nz == g.dims.nz && f.dims.N == g.dims.N && f.dims.localNy == g.dims.localNy &&
    f.dims.localYStart == g.dims.localYStart && f.dims.lastDim == g.dims.lastDim && f.dims.lastDimSize == g.dims.lastDimSize &&
      f.dims.otherDims == g.dims.otherDims

/-- The assignments to `type_char` in a `field_smob`, followed by `update_curfield` (mpb/field-smob.c:164-170): for the static smob of
`cur-field` both globals are set. -/
def setLetter (r : Ref) (f : Smob) (c : Char) (s : St) : St :=
  match r with
  | .cur => { s with letter := c, curfield := some f.ptr }
  | .obj n => { s with objs := s.objs.set n { f with letter := c } }

/-- The letter of a new field variable. -/
def Kind.letter : Kind → Char
  | .rs => 'R'
  | .cv => 'c'
  | .cs => 'C'

/-- `rscalar_field_make`, `cscalar_field_make`, `cvector_field_make`, mpb/field-smob.c:194-241: a block of zeros. -/
def make (k : Kind) (r : Ref) (s : St) : Option (St × Resp) :=
  (smob s r).map fun
    | .error _ => (s, .dies)
    | .ok f =>
      if k = .cv ∧ s.mdata = none then (s, .dies)
      else
        ({ s with mem := Function.update s.mem s.next (fun _ => 0), size := Function.update s.size s.next (k.width * f.dims.N), next := s.next + 1,
                  objs := s.objs ++ [⟨k, k.letter, f.dims, s.next⟩] }, .field s.objs.length)

/-- `field_make`, mpb/field-smob.c:251-264. -/
def fieldMake (r : Ref) (s : St) : Option (St × Resp) :=
  (smob s r).bind fun
    | .error _ => some (s, .dies)
    | .ok f => make f.kind r s

/-- `cvector_field_nonblochB`, mpb/field-smob.c:243-249. -/
def nonbloch (r : Ref) (s : St) : Option (St × Resp) :=
  (smob s r).map fun
    | .error _ => (s, .dies)
    | .ok f => (setLetter r f 'v' s, .ok)

/-- `fields_conformp`, mpb/field-smob.c:275-282. -/
def conformp (r q : Ref) (s : St) : Option (St × Resp) :=
  (smob s r).bind fun
    | .error _ => some (s, .dies)
    | .ok f => (smob s q).map fun
      | .error _ => (s, .dies)
      | .ok g => (s, .bool (conform f g))

/-- The assignment of the `i`-th real from block `b` to block `a`. -/
def copyReal (a b i : ℕ) (s : St) : Option St := (rd s b i).bind fun x => wr s a i x

/-- The loops of `field_set`, mpb/field-smob.c:291-305: the first `n` reals (a complex number is copied as two reals). -/
def copyLoop (a b : ℕ) : ℕ → St → Option St
  | 0, s => some s
  | n + 1, s => (copyLoop a b n s).bind (copyReal a b n)

/-- `field_set`, mpb/field-smob.c:284-309; `f` is the destination, of the variable `r`. -/
def fieldSet (r : Ref) (f g : Smob) (s : St) : Option (St × Resp) :=
  if f.kind = g.kind ∧ conform f g then
    if g.letter = '-' then some (s, .dies)
    else (copyLoop f.ptr g.ptr (g.kind.width * g.dims.N) s).map fun s => (setLetter r f g.letter s, .ok)
  else some (s, .dies)

/-- `field_setB`, mpb/field-smob.c:311-317. -/
def set (r q : Ref) (s : St) : Option (St × Resp) :=
  (smob s r).bind fun
    | .error _ => some (s, .dies)
    | .ok f => (smob s q).bind fun
      | .error _ => some (s, .dies)
      | .ok g => fieldSet r f g s

/-- The static smob after `update_curfield_smob()` whose result is ignored, mpb/field-smob.c:131-161: without a field it points to
`mdata->fft_data`. -/
def curTarget (s : St) (d : Dims) (fft : ℕ) : Option Smob :=
  match kindOf s.letter with
  | some k => s.curfield.map fun b => ⟨k, s.letter, d, b⟩
  | none => some ⟨.rs, s.letter, d, s.curfield.getD fft⟩

/-- `field_load`, mpb/field-smob.c:319-329.  (The smob of `cur-field` as an argument is the static one itself.) -/
def load (q : Ref) (s : St) : Option (St × Resp) :=
  (smob s q).bind fun
    | .error _ => some (s, .dies)
    | .ok g =>
      match s.mdata with
      | none => some (s, .dies)
      | some (d, fft) => (curTarget s d fft).bind fun f =>
        if conform g f then fieldSet .cur ⟨g.kind, f.letter, f.dims, f.ptr⟩ g s else some (s, .dies)

/-- Reading the complex number at index `i`. -/
def rdC (s : St) (b i : ℕ) : Option ℂ := (rd s b (2 * i)).bind fun x => (rd s b (2 * i + 1)).map fun y => ⟨x, y⟩

/-- The value of a field at a grid point, mpb/field-smob.c:346-357. -/
def itemAt (s : St) (f : Smob) (i : ℕ) : Option Item :=
  match f.kind with
  | .rs => (rd s f.ptr i).map .r
  | .cs => (rdC s f.ptr i).map .c
  | .cv => (rdC s f.ptr (3 * i)).bind fun x => (rdC s f.ptr (3 * i + 1)).bind fun y => (rdC s f.ptr (3 * i + 2)).map fun z => .v ⟨x, y, z⟩

def wrC (s : St) (b i : ℕ) (z : ℂ) : Option St := (wr s b (2 * i) z.re).bind fun s => wr s b (2 * i + 1) z.im

/-- Storing the result of the user's function, mpb/field-smob.c:361-371; the conversion fails (`none`) for a value of another type. -/
def store (s : St) (f : Smob) (i : ℕ) (x : Item) : Option St :=
  match f.kind, x with
  | .rs, .r x => wr s f.ptr i x
  | .cs, .c x => wrC s f.ptr i x
  | .cv, .v x => (wrC s f.ptr (3 * i) x.x).bind fun s => (wrC s f.ptr (3 * i + 1) x.y).bind fun s => wrC s f.ptr (3 * i + 2) x.z
  | _, _ => none

/-- The argument list at a grid point, mpb/field-smob.c:340-359 (built from the last field to the first). -/
def items (s : St) (i : ℕ) : List Smob → Option (List Item)
  | [] => some []
  | g :: gs => (items s i gs).bind fun l => (itemAt s g i).map fun x => x :: l

/-- The loop over the grid, mpb/field-smob.c:340-372: the first `n` points. -/
def mapLoop (f : Smob) (fn : List Item → Item) (gs : List Smob) : ℕ → St → Option St
  | 0, s => some s
  | n + 1, s => (mapLoop f fn gs n s).bind fun s => (items s n gs).bind fun l => store s f n (fn l)

/-- The new letter, mpb/field-smob.c:373-386. -/
def mapLetter (f : Smob) (gs : List Smob) : Char :=
  match gs with
  | [g] => if g.kind = f.kind then g.letter else f.letter
  | [] => f.letter
  | _ => f.kind.letter

/-- The arguments of `field-map!`, mpb/field-smob.c:336-340: `.error`: the program ends. -/
def sources (s : St) (f : Smob) : List Ref → Option (Except Unit (List Smob))
  | [] => some (.ok [])
  | q :: qs => (smob s q).bind fun
    | .error _ => some (.error ())
    | .ok g => if conform f g then (sources s f qs).map fun
        | .error _ => .error ()
        | .ok gs => .ok (g :: gs)
      else some (.error ())

/-- `field_mapLB`, mpb/field-smob.c:331-391, called by `field-map!`, mpb/mpb.scm.in:278.  `fn` is the user's function. -/
def map (r : Ref) (fn : List Item → Item) (qs : List Ref) (s : St) : Option (St × Resp) :=
  (smob s r).bind fun
    | .error _ => some (s, .dies)
    | .ok f => (sources s f qs).bind fun
      | .error _ => some (s, .dies)
      | .ok gs => (mapLoop f fn gs f.dims.N s).map fun s => (setLetter r f (mapLetter f gs) s, .ok)

/-- Reading a value, as `integrate-fields` does, mpb/field-smob.c:546-558. -/
def get (q : Ref) (i : ℕ) (s : St) : Option (St × Resp) :=
  (smob s q).bind fun
    | .error _ => some (s, .dies)
    | .ok g => if i < g.dims.N then (itemAt s g i).map fun x => (s, .item g.letter x) else some (s, .dies)

/-- The commands.  `init`: `init-params` (mpb/mpb.c:385-532): `mdata` is made anew, with `fft` points times bands in the FFT array (of unknown
contents), and the current field is reset.  `fill`: a command that loads or computes a field (get-dfield, compute-field-energy, get-epsilon,
...): it sets `curfield` to the FFT array, gives it a letter and contents.  `scratch`: a command that uses the FFT array (get-epsilon-tensor
internally, epsilon.c:507; solving). -/
inductive Cmd
  | init (d : Dims) (fft : ℕ) (junk : ℕ → ℝ)
  | fill (c : Char) (x : ℕ → ℝ)
  | scratch (x : ℕ → ℝ)
  | make (k : Kind) (r : Ref)
  | fieldMake (r : Ref)
  | nonbloch (r : Ref)
  | conform (r q : Ref)
  | set (r q : Ref)
  | load (q : Ref)
  | map (r : Ref) (fn : List Item → Item) (qs : List Ref)
  | get (q : Ref) (i : ℕ)

def init (d : Dims) (fft : ℕ) (junk : ℕ → ℝ) (s : St) : St :=
  { s with mdata := some (d, s.next), curfield := none, letter := '-', mem := Function.update s.mem s.next junk,
           size := Function.update s.size s.next (6 * fft), next := s.next + 1 }

def fill (c : Char) (x : ℕ → ℝ) (s : St) : Option (St × Resp) :=
  some <| match s.mdata with
  | none => (s, .dies)
  | some (_, b) => ({ s with curfield := some b, letter := c, mem := Function.update s.mem b x }, .ok)

def scratch (x : ℕ → ℝ) (s : St) : Option (St × Resp) :=
  some <| match s.mdata with
  | none => (s, .dies)
  | some (_, b) => ({ s with curfield := some b, letter := '-', mem := Function.update s.mem b x }, .ok)

def step (s : St) : Cmd → Option (St × Resp)
  | .init d fft junk => some (init d fft junk s, .ok)
  | .fill c x => fill c x s
  | .scratch x => scratch x s
  | .make k r => make k r s
  | .fieldMake r => fieldMake r s
  | .nonbloch r => nonbloch r s
  | .conform r q => conformp r q s
  | .set r q => set r q s
  | .load q => load q s
  | .map r fn qs => map r fn qs s
  | .get q i => get q i s

/-- A history, with the responses; the program ends at the first `dies`. -/
def run (s : St) : List Cmd → Option (St × List Resp)
  | [] => some (s, [])
  | c :: cs => (step s c).bind fun
    | (s, .dies) => some (s, [.dies])
    | (s, r) => (run s cs).map fun t => (t.1, r :: t.2)

/-- The program at the start. -/
def start : St := ⟨none, none, '-', fun _ _ => 0, fun _ => 0, 0, []⟩

end Mpb.Objects

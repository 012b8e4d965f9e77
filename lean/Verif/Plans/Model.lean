import Mathlib.Data.List.Basic
import Mathlib.Data.List.Nodup
import Mathlib.Logic.Function.Basic
import Mathlib.Tactic

/-!
# Storage of a problem and the cache of transform plans (C124)

`create_maxwell_data`, `destroy_maxwell_data` (src/maxwell/maxwell.c:30-293) and `maxwell_compute_fft` (src/maxwell/maxwell_op.c:168-283), in
the serial builds with FFTW 3, general (`real = false`) and inversion-symmetric (`real = true`).  Memory and FFTW's plans are objects with
handles; releasing a handle that is not live, executing a plan that is not live, executing a plan through the function of another kind of
transform, and storing beyond the 32 places of the cache are undefined behaviour (`none`).  Allocation and planning are assumed to succeed (the
program stops otherwise, `CHECK`).  Not modelled: what the transforms compute (Maxwell/Operator), MPI, FFTW 2.
-/

namespace Mpb.Plans

/-- `MAX_NPLANS`, maxwell.h:86. -/
def maxNplans : ℕ := 32

/-- `NUM_FFT_BANDS`, mpb/mpb.h:52. -/
def numFftBands : ℕ := 20

/-- the arguments `howmany, stride, dist` of maxwell_op.c:170. -/
structure Layout where
  howmany : ℕ
  stride : ℕ
  dist : ℕ
deriving DecidableEq, Repr

/-- grid sizes `nx, ny, nz`. -/
structure Grid where
  nx : ℕ
  ny : ℕ
  nz : ℕ
deriving DecidableEq, Repr

/-- the four kinds of transform planned: `FFTW_BACKWARD`, `FFTW_FORWARD`, `c2r`, `r2c` (maxwell_op.c:207-212, 234-241). -/
inductive Kind where
  | backward | forward | c2r | r2c
deriving DecidableEq, Repr

/-- what a plan was made for: kind, the sizes of the transform, the sizes of the stored array on the scalar side (`nembed`), layout, and whether the
two arrays were the same. -/
structure PlanSpec where
  kind : Kind
  dims : List ℕ
  stored : List ℕ
  lay : Layout
  inPlace : Bool
deriving DecidableEq, Repr

/-- a live object: a block of memory of so many elements, or a plan. -/
inductive Obj where
  | block (size : ℕ)
  | plan (s : PlanSpec)
deriving DecidableEq, Repr

/-- the live objects; handles are never reused. -/
structure Heap where
  next : ℕ
  at_ : ℕ → Option Obj

/-- `malloc` and the planner. -/
def alloc (o : Obj) (h : Heap) : ℕ × Heap := (h.next, ⟨h.next + 1, Function.update h.at_ h.next (some o)⟩)

/-- `free`, `FFTW(free)`, `FFTW(destroy_plan)`; a handle that is not live is undefined behaviour. -/
def free (k : ℕ) (h : Heap) : Option Heap := if (h.at_ k).isSome then some { h with at_ := Function.update h.at_ k none } else none

/-- releases in order. -/
def freeAll (l : List ℕ) (h : Heap) : Option Heap := l.foldlM (fun h k => free k h) h

/-- `struct maxwell_data`, maxwell.h:88-130, the members that hold storage; `self` is the structure's own block. -/
structure MData where
  self : ℕ
  grid : Grid
  maxFft : ℕ
  nplans : ℕ
  plans : ℕ → ℕ
  iplans : ℕ → ℕ
  key : ℕ → Layout
  epsInv : ℕ
  muInv : Option ℕ
  fftData : ℕ
  fftData2 : ℕ
  kG : ℕ
  kG2 : ℕ

/-- `rank`, maxwell.c:35, and `rnk`, maxwell_op.c:216. -/
def Grid.rank (g : Grid) : ℕ := if g.nz = 1 then (if g.ny = 1 then 1 else 2) else 3

/-- `last_dim`, maxwell.c:65. -/
def Grid.lastDim (g : Grid) : ℕ := if g.nz = 1 then (if g.ny = 1 then g.nx else g.ny) else g.nz

/-- `other_dims`, maxwell.c:74. -/
def Grid.otherDims (g : Grid) : ℕ := g.nx * g.ny * g.nz / g.lastDim

/-- `fft_data_size`, maxwell.c:80-85, before it is multiplied by the number of bands. -/
def Grid.fftSize (real : Bool) (g : Grid) : ℕ :=
  if real then g.otherDims * (2 * (g.lastDim / 2 + 1)) else g.nx * g.ny * g.nz

/-- `fft_output_size`, maxwell.c:81, 84. -/
def Grid.outSize (real : Bool) (g : Grid) : ℕ := if real then g.fftSize true / 2 else g.nx * g.ny * g.nz

/-- `create_maxwell_data(nx, ny, nz, ..., num_bands, NUM_FFT_BANDS)`, maxwell.c:30-247; `junk` is what `malloc` left in the arrays of the cache. -/
def create (real : Bool) (g : Grid) (nb : ℕ) (junk : ℕ → ℕ × ℕ × Layout) (h : Heap) : MData × Heap :=
  let (self, h) := alloc (.block 1) h
  let m := min nb numFftBands
  let (e, h) := alloc (.block (g.outSize real)) h
  let (f, h) := alloc (.block (3 * (g.fftSize real * m))) h
  let (k, h) := alloc (.block (g.nx * g.ny * g.nz)) h
  let (k2, h) := alloc (.block (g.nx * g.ny * g.nz)) h
  (⟨self, g, m, 0, fun i => (junk i).1, fun i => (junk i).2.1, fun i => (junk i).2.2, e, none, f, f, k, k2⟩, h)

/-- the order of releases in `destroy_maxwell_data`, maxwell.c:249-293. -/
def destroyOrder (d : MData) : List ℕ :=
  (List.range d.nplans).flatMap (fun i => [d.plans i, d.iplans i])
    ++ [d.epsInv] ++ d.muInv.toList
    ++ [d.fftData] ++ (if d.fftData2 ≠ d.fftData then [d.fftData2] else [])
    ++ [d.kG, d.kG2, d.self]

/-- `destroy_maxwell_data`. -/
def destroy (d : MData) (h : Heap) : Option Heap := freeAll (destroyOrder d) h

/-- `set_maxwell_mu`, maxwell_eps.c:798-800: the array for `mu` is made when first needed. -/
def setMu (real : Bool) (d : MData) (h : Heap) : MData × Heap :=
  match d.muInv with
  | some _ => (d, h)
  | none => let (m, h) := alloc (.block (d.grid.outSize real)) h
            ({ d with muInv := some m }, h)

/-- the search of maxwell_op.c:179-181. -/
def search (d : MData) (L : Layout) (ip : ℕ) : ℕ :=
  if ip < d.nplans ∧ (L.howmany ≠ (d.key ip).howmany ∨ L.stride ≠ (d.key ip).stride ∨ L.dist ≠ (d.key ip).dist) then search d L (ip + 1) else ip
termination_by d.nplans - ip

/-- `nr`, maxwell_op.c:217-218: the sizes with the last one that counts padded. -/
def padded (g : Grid) : List ℕ :=
  if g.nz ≠ 1 then [g.nx, g.ny, 2 * (g.nz / 2 + 1)] else if g.ny ≠ 1 then [g.nx, 2 * (g.ny / 2 + 1)] else [2 * (g.nx / 2 + 1)]

/-- the plan made, maxwell_op.c:186-246: `back` for `plan`, otherwise `iplan`. -/
def planFor (real back : Bool) (g : Grid) (L : Layout) (inPlace : Bool) : PlanSpec :=
  if real then ⟨if back then .c2r else .r2c, [g.nx, g.ny, g.nz].take g.rank, padded g, L, inPlace⟩
  else ⟨if back then .backward else .forward, [g.nx, g.ny, g.nz], [g.nx, g.ny, g.nz], L, inPlace⟩

/-- what was executed: the plan and the two arrays. -/
structure Exec where
  spec : PlanSpec
  arrayIn : ℕ
  arrayOut : ℕ
deriving DecidableEq, Repr

/-- the handles of the two plans used: from the cache (maxwell_op.c:182-185) or new (186-246). -/
def obtain_ (real : Bool) (d : MData) (ip : ℕ) (L : Layout) (inPlace : Bool) (h : Heap) : (ℕ × ℕ) × Heap :=
  if ip < d.nplans then ((d.plans ip, d.iplans ip), h)
  else
    let (p, h) := alloc (.plan (planFor real true d.grid L inPlace)) h
    let (i, h) := alloc (.plan (planFor real false d.grid L inPlace)) h
    ((p, i), h)

/-- the kinds the execute functions of maxwell_op.c:252-270 accept: `execute_dft` a complex plan, `execute_dft_r2c` and `execute_dft_c2r` their own. -/
def accepts (real back : Bool) (k : Kind) : Bool :=
  if real then (if back then k == .c2r else k == .r2c) else (k == .backward || k == .forward)

/-- execution of the plan with handle `p`, maxwell_op.c:252-270. -/
def execute (real back : Bool) (p a b : ℕ) (h : Heap) : Option Exec :=
  match h.at_ p with
  | some (.plan s) => if accepts real back s.kind then some ⟨s, a, b⟩ else none
  | _ => none

/-- the end of `maxwell_compute_fft`, maxwell_op.c:272-283: plans beyond the 32 are released, new ones are stored. -/
def retain (d : MData) (ip : ℕ) (L : Layout) (p i : ℕ) (h : Heap) : Option (MData × Heap) :=
  if ip = maxNplans then do
    let h ← free p h
    let h ← free i h
    pure (d, h)
  else if ip = d.nplans then
    if ip < maxNplans then
      some ({ d with plans := Function.update d.plans ip p, iplans := Function.update d.iplans ip i,
                     key := Function.update d.key ip L, nplans := d.nplans + 1 }, h)
    else none
  else some (d, h)

/-- `maxwell_compute_fft(dir, d, array_in, array_out, howmany, stride, dist)`; `back` is `dir < 0` (the callers pass `-1` and `+1`). -/
def computeFft (real back : Bool) (a b : ℕ) (L : Layout) (d : MData) (h : Heap) : Option (Exec × MData × Heap) := do
  let ip := search d L 0
  let ((p, i), h) := obtain_ real d ip L (a == b) h
  let e ← execute real back (if back then p else i) a b h
  let (d, h) ← retain d ip L p i h
  pure (e, d, h)

/-- the other array of a transform of `f`, as the callers choose it: maxwell_op.c:403, 473, 513, 549, mpb/fields.c:376; the operators use
`fft_data` and `fft_data2` (maxwell_op.c:1196, 1299-1300, maxwell_pre.c:232-233), which is the same choice for `f = fft_data`. -/
def partner (d : MData) (f : ℕ) : ℕ :=
  if d.fftData2 = d.fftData then f else if f = d.fftData then d.fftData2 else d.fftData

/-- what happens to the problem in a session: `init-params` (mpb/mpb.c:441-470: the old data are destroyed, new ones created), `set_maxwell_mu`, and a
transform of the array `fft_data` (`curfield` is this array too, mpb/fields.c:70, 127, 173). -/
inductive Op where
  | init (g : Grid) (nb : ℕ) (junk : ℕ → ℕ × ℕ × Layout)
  | mu
  | fft (back : Bool) (L : Layout)

/-- the pointer `mdata` and the heap. -/
structure St where
  md : Option MData
  heap : Heap

/-- the start of the program. -/
def start : St := ⟨none, ⟨0, fun _ => none⟩⟩

/-- one operation; before the first `init-params` the others only print a message.  A backward transform (`-1`) goes from the array to its partner, a forward one (`+1`)
from the partner to the array. -/
def step (real : Bool) (s : St) : Op → Option (St × Option Exec)
  | .init g nb junk => do
      let h ← (match s.md with
        | some d => destroy d s.heap
        | none => some s.heap)
      let (d, h) := create real g nb junk h
      pure (⟨some d, h⟩, none)
  | .mu => match s.md with
      | none => some (s, none)
      | some d => let (d, h) := setMu real d s.heap
                  some (⟨some d, h⟩, none)
  | .fft back L => match s.md with
      | none => some (s, none)
      | some d => do
          let f := d.fftData
          let (e, d, h) ← computeFft real back (if back then f else partner d f) (if back then partner d f else f) L d s.heap
          pure (⟨some d, h⟩, some e)

/-- a session. -/
def run (real : Bool) (l : List Op) : Option St := l.foldlM (fun s o => (step real s o).map Prod.fst) start

/-! ## Specification -/

/-- what a reader of the session knows: the grid and block size of the last `init-params` and the different layouts transformed since, in order of first use. -/
structure Seen where
  grid : Grid
  nb : ℕ
  layouts : List Layout

/-- one more operation seen. -/
def see (s : Option Seen) : Op → Option Seen
  | .init g nb _ => some ⟨g, nb, []⟩
  | .mu => s
  | .fft _ L => s.map fun v => if L ∈ v.layouts then v else { v with layouts := v.layouts ++ [L] }

/-- the session as seen. -/
def seen (l : List Op) : Option Seen := l.foldl see none

/-- the sizes of the grid without the trailing sizes 1 -/
def significant (g : Grid) : List ℕ := if g.nz ≠ 1 then [g.nx, g.ny, g.nz] else if g.ny ≠ 1 then [g.nx, g.ny] else [g.nx]

/-- the plan a user of the transform wants for a grid, a direction and a layout: in the general build the complex transform of the whole grid, backward for
direction `-1`; in the inversion-symmetric build the transform between real numbers and the stored half, with the rows of real numbers padded to an
even number that holds `n/2 + 1` complex ones. -/
def wanted (real back : Bool) (g : Grid) (L : Layout) : PlanSpec :=
  match real, back with
  | false, true => ⟨.backward, [g.nx, g.ny, g.nz], [g.nx, g.ny, g.nz], L, true⟩
  | false, false => ⟨.forward, [g.nx, g.ny, g.nz], [g.nx, g.ny, g.nz], L, true⟩
  | true, true => ⟨.c2r, significant g, (significant g).dropLast ++ [2 * ((significant g).getLastD 0 / 2 + 1)], L, true⟩
  | true, false => ⟨.r2c, significant g, (significant g).dropLast ++ [2 * ((significant g).getLastD 0 / 2 + 1)], L, true⟩

/-- the number of elements between the first and the last one (inclusive) of `howmany` interleaved arrays of `P` elements. -/
def extent (P : ℕ) (L : Layout) : ℕ := (P - 1) * L.stride + (L.howmany - 1) * L.dist + 1

/-- the scalars reached by a plan: on the side of the stored array, and for real transforms also on the complex side, whose rows are `last/2 + 1` complex numbers
(two scalars each). -/
def reach (s : PlanSpec) : ℕ :=
  match s.kind with
  | .backward | .forward => extent s.stored.prod s.lay
  | .c2r | .r2c => max (extent s.stored.prod s.lay)
      (2 * extent ((s.dims.dropLast).prod * ((s.dims.getLast?.getD 1) / 2 + 1)) s.lay)

end Mpb.Plans

import Mathlib.Tactic.Linarith
import Mathlib.Algebra.Order.Group.Unbundled.Int
import Mathlib.Data.List.Range

/-!
# How many bands are transformed at a time, and how many fit the FFT scratch array

The scratch array `fft_data` holds `max_fft_bands` bands (src/maxwell/maxwell.c:59, 225-234); every function that transforms `n` bands at once writes
`n` bands to it.
-/

namespace Mpb.Workspace.Fft

/-- `NUM_FFT_BANDS` (mpb/mpb.h:52). -/
def numFftBands : ℕ := 20

/-- `num_bands`, `max_fft_bands`, `num_fft_bands` of `maxwell_data` (src/maxwell/maxwell.h:98-99). -/
structure D where
  numBands : ℕ
  maxFft : ℕ
  numFft : ℕ
  deriving DecidableEq, Repr

/-- `maxwell_set_num_bands` (src/maxwell/maxwell.c:295-299). -/
def setNumBands (d : D) (n : ℕ) : D := { d with numBands := n, numFft := min n d.maxFft }

/-- `create_maxwell_data` (src/maxwell/maxwell.c:59-60) as called by `init_params` (mpb/mpb.c:472-473). -/
def createD (bs : ℕ) : D := setNumBands ⟨bs, min bs numFftBands, 0⟩ bs

/-- The loop `for (start = 0; start < p; start += num_fft_bands)` with `cur_num_bands = MIN2(num_fft_bands, p - start)` of `maxwell_operator`, `maxwell_muinv_operator`,
`maxwell_ucross_op`, `maxwell_preconditioner2` (src/maxwell/maxwell_op.c:1200-1203, 1239-1242, 1305-1308, src/maxwell/maxwell_pre.c:239-241):
the (first band, number of bands) of each iteration.  If `num_fft_bands = 0` the program does not terminate: the list here ends (excluded in the theorems). -/
def chunks (numFft p start : ℕ) : List (ℕ × ℕ) :=
  if h : start < p ∧ 0 < numFft then (start, min numFft (p - start)) :: chunks numFft p (start + numFft) else []
termination_by p - start
decreasing_by omega

/-- One transform of bands: which bands of the whole problem, starting where and how many, by which of the two kinds of calls. -/
structure Tr where
  first : ℕ
  count : ℕ
  deriving DecidableEq, Repr

/-- An operator applied to a block whose first column is band `ib` of the problem. -/
def opTr (d : D) (ib p : ℕ) : List Tr := (chunks d.numFft p 0).map fun c => ⟨ib + c.1, c.2⟩

/-- `maxwell_compute_H_from_B` (src/maxwell/maxwell_op.c:544-582) on `n` bands from `ib` on: no transform without a permeability. -/
def hFromB (mu : Bool) (ib n : ℕ) : List Tr := if mu then [⟨ib, n⟩] else []

/-- State of the block loops: `maxwell_data` and the number of columns of the block matrices. -/
abbrev LoopSt := D × ℕ

/-- The resizing at the start of a block of `compute_group_velocity_component` (mpb/mpb.c:904-908). -/
def shrinkGv (nb ib : ℕ) (s : LoopSt) : LoopSt :=
  if ib + s.1.numBands > nb then (setNumBands s.1 (nb - ib), nb - ib) else s

/-- The block loop of `compute_group_velocity_component` (mpb/mpb.c:903-920): the transforms of H_from_B and of ucross_op.  `bs` is `Hblock.alloc_p`. -/
def gvLoop (mu : Bool) (bs nb ib : ℕ) (s : LoopSt) : List (List Tr × List Tr) :=
  if h : ib < nb ∧ 0 < bs then
    let t := shrinkGv nb ib s
    (hFromB mu ib t.2, opTr t.1 ib t.2) :: gvLoop mu bs nb (ib + bs) t
  else []
termination_by nb - ib
decreasing_by omega

/-- compute-group-velocity-component after init-params with block size `bs` and `nb` bands. -/
def groupVel (mu : Bool) (bs nb : ℕ) : List (List Tr × List Tr) := gvLoop mu bs nb 0 (createD bs, bs)

/-- The resizing of `dot_eigenvectors` (mpb/matrix-smob.c:310-313). -/
def shrinkDot (bs final ib : ℕ) (s : LoopSt) : LoopSt :=
  if ib + bs > final then (setNumBands s.1 (final - ib), final - ib) else s

/-- The block loop of `dot_eigenvectors` with a permeability (mpb/matrix-smob.c:309-320); `bs` is `W[0].alloc_p`. -/
def dotLoop (bs final ib : ℕ) (s : LoopSt) : List (List Tr) :=
  if h : ib < final ∧ 0 < bs then
    let t := shrinkDot bs final ib s
    hFromB true ib t.2 :: dotLoop bs final (ib + bs) t
  else []
termination_by final - ib
decreasing_by omega

/-- dot-eigenvectors with `n` bands from band `first` (counted from 0) on. -/
def dotEig (bs first n : ℕ) : List (List Tr) := dotLoop bs (first + n) first (createD bs, bs)

/-! ## Specification -/

/-- The bands transformed. -/
def Tr.bands (t : Tr) : List ℕ := List.range' t.first t.count

/-- All transforms fit an array of `cap` bands. -/
def AllFit (cap : ℕ) (l : List Tr) : Prop := ∀ t ∈ l, t.count ≤ cap

end Mpb.Workspace.Fft

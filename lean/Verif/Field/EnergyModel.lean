import Verif.Field.SumModel
import Verif.Maxwell.Operator

/-!
# Model of `get-dfield`, `get-bfield`, `get-hfield` and of the energy density (mpb/fields.c:52-365)

The energy density is written over the field it is computed from; the array is modelled as a memory of reals: the complex
number `curfield[j]` is the pair of reals at `2j`, `2j+1`, and `energy_density[i]` is the real at `i`.
-/

namespace Mpb.Field
open Mpb.Maxwell

/-! ## The energy loop -/

/-- The complex number `curfield[j]` in the memory of reals. -/
def cplx (mem : ℕ → ℝ) (j : ℕ) : ℂ := ⟨mem (2 * j), mem (2 * j + 1)⟩

/-- The vector `curfield[3*i .. 3*i+2]`. -/
def cvec (mem : ℕ → ℝ) (i : ℕ) : V3 ℂ := ⟨cplx mem (3 * i), cplx mem (3 * i + 1), cplx mem (3 * i + 2)⟩

/-- A complex array as a memory of reals. -/
def toReals (F : ℕ → ℂ) (a : ℕ) : ℝ := if a % 2 = 0 then (F (a / 2)).re else (F (a / 2)).im

/-- What is multiplied with the field (mpb/fields.c:246-256): the inverse dielectric tensor for `'d'`, the inverse permeability
for `'b'` when there is one, nothing otherwise. -/
noncomputable def energyField (ty : Char) (epsInv : ℕ → HMat) (muInv : Option (ℕ → HMat)) (i : ℕ) (v : V3 ℂ) : V3 ℂ :=
  if ty = 'd' then (epsInv i).mulVec v
  else if ty = 'b' then
    match muInv with
    | some mu => (mu i).mulVec v
    | none => v
  else v

/-- `comp_sqr0 .. comp_sqr5` (mpb/fields.c:258-263) of the two vectors. -/
def compSqr (f v : V3 ℂ) : Fin 6 → ℝ
  | 0 => f.x.re * v.x.re
  | 1 => f.x.im * v.x.im
  | 2 => f.y.re * v.y.re
  | 3 => f.y.im * v.y.im
  | 4 => f.z.re * v.z.re
  | 5 => f.z.im * v.z.im

/-- The variables of the loop. -/
structure EState where
  mem : ℕ → ℝ
  energySum : ℝ
  compSum : Fin 6 → ℝ

/-- One iteration (mpb/fields.c:241-291).  `T` is `energyField`; `dbl` says whether the point is counted twice. -/
def energyStep (T : ℕ → V3 ℂ → V3 ℂ) (dbl : ℕ → Bool) (st : EState) (i : ℕ) : EState :=
  let v := cvec st.mem i
  let q := compSqr (T i v) v
  let e := q 0 + q 1 + q 2 + q 3 + q 4 + q 5
  let mem := Function.update st.mem i e
  if dbl i then ⟨mem, st.energySum + e + mem i, fun c => st.compSum c + q c + q c⟩
  else ⟨mem, st.energySum + e, fun c => st.compSum c + q c⟩

/-- `compute_field_energy_internal` (mpb/fields.c:227-305) on one process, before the reductions. -/
def energyLoop (T : ℕ → V3 ℂ → V3 ℂ) (dbl : ℕ → Bool) (N : ℕ) (mem : ℕ → ℝ) : EState :=
  (List.range N).foldl (energyStep T dbl) ⟨mem, 0, fun _ => 0⟩

/-- `last_index != 0 && 2*last_index != last_dim` without MPI (mpb/fields.c:279-282). -/
def dblSerial (S : Shape) (i : ℕ) : Bool := S.doubled ((i % S.nlast : ℕ) : ℤ)

/-- The same with MPI (mpb/fields.c:273-277). -/
def dblMpi (S : Shape) (q : Slab) (i : ℕ) : Bool :=
  S.doubled (if S.nz = 1 then ((i / S.nx + q.y0 : ℕ) : ℤ) else ((i % S.nlast : ℕ) : ℤ))

/-- The list returned by `compute_field_energy` (mpb/fields.c:325-350): the total and the fractions of the components. -/
noncomputable def fieldEnergy (T : ℕ → V3 ℂ → V3 ℂ) (dbl : ℕ → Bool) (N HN : ℕ) (Vol : ℝ) (mem : ℕ → ℝ) : ℝ × (Fin 6 → ℝ) :=
  let st := energyLoop T dbl N mem
  (st.energySum * Vol / HN, fun c => st.compSum c / (if st.energySum = 0 then 1 else st.energySum))

/-! ## Loading the fields (complex build, serial) -/

/-- The final loop of the three functions: multiply by `scale` the first `3*N` entries. -/
noncomputable def scaleField (N : ℕ) (scale : ℝ) (F : ℕ → ℂ) (j : ℕ) : ℂ :=
  if j < 3 * N then ⟨(F j).re * scale, (F j).im * scale⟩ else F j

/-- `maxwell_compute_H_from_B(mdata, H, W[0], curfield, which_band-1, 0, 1)` with `W[0]` resized to one band
(mpb/fields.c:76-77), for `mu_inv != NULL`. -/
noncomputable def oneFromB (d : OpData) (mu : ℕ → HMat) (p : ℕ) (H W0 buf : ℕ → ℂ) (b : ℕ) : ℕ → ℂ :=
  let h := eFromD d.N 1 mu (hFromH d p H buf b 1)
  storeBands c2t d.od d.ld d.kpg 1 (computeFft d.Wb d.N (1 * 3) h h) W0 0 1 (1 / (d.N : ℝ))

/-- `get_dfield` after its checks (mpb/fields.c:71-106): the loaded field of band `b` (counted from 0).  `buf`, `buf2` are
the old contents of the FFT buffer at the two uses. -/
noncomputable def getD (d : OpData) (p : ℕ) (H W0 buf buf2 : ℕ → ℂ) (freqs : ℕ → ℝ) (Vol : ℝ) (b : ℕ) : ℕ → ℂ :=
  let F := match d.muInv with
    | none => dFromH d p H buf b 1
    | some mu => dFromH d 1 (oneFromB d mu p H W0 buf b) buf2 0 1
  let scale := if freqs b ≠ 0 then -1 / freqs b else -1
  scaleField d.N (scale / Real.sqrt Vol) F

/-- `get_hfield` after its checks (mpb/fields.c:127-152). -/
noncomputable def getH (d : OpData) (p : ℕ) (H W0 buf buf2 : ℕ → ℂ) (Vol : ℝ) (b : ℕ) : ℕ → ℂ :=
  let F := match d.muInv with
    | none => hFromH d p H buf b 1
    | some mu => hFromH d 1 (oneFromB d mu p H W0 buf b) buf2 0 1
  scaleField d.N (1 / Real.sqrt Vol) F

/-- `get_bfield` after its checks (mpb/fields.c:173-191). -/
noncomputable def getB (d : OpData) (p : ℕ) (H buf : ℕ → ℂ) (Vol : ℝ) (b : ℕ) : ℕ → ℂ :=
  scaleField d.N (1 / Real.sqrt Vol) (hFromH d p H buf b 1)

/-- The frequency stored by `solve_kpoint` (mpb/mpb.c:832-834). -/
noncomputable def storedFreq (negEps : Bool) (eigval : ℝ) : ℝ := if negEps then eigval else Real.sqrt eigval

end Mpb.Field

import Verif.Maxwell.Operator
import Verif.MpbData.Model

/-!
# Model of the group velocity functions (mpb/mpb.c:865-1015)

Complex-scalar build, one process, exact arithmetic.  The eigenvectors are the array `H` of `num_bands = p` bands; `Hblock` is
either a separate array of `alloc_p` bands or the array `H` itself (mpb/mpb.c:491-495).
-/

namespace Mpb.Velocity
open Mpb.Maxwell

/-! ### Directions -/

/-- `init_epsilon`, mpb/medium.c:160-165: the lattice vectors; `nx` … are the flags `no_size_x` …. -/
noncomputable def latticeRm (nosx nosy nosz : Bool) (size : V3 ℝ) (basis : M3 ℝ) : M3 ℝ :=
  ⟨V3.smul (if nosx then 1 else size.x) basis.c0, V3.smul (if nosy then 1 else size.y) basis.c1,
   V3.smul (if nosz then 1 else size.z) basis.c2⟩

/-- `init_epsilon`, mpb/medium.c:173. -/
noncomputable def latticeGm (Rm : M3 ℝ) : M3 ℝ := MpbData.inverse Rm.transpose

/-- mpb/mpb.c:890-892 and 967-969: the Cartesian unit vector `u` for a direction in the reciprocal basis. -/
noncomputable def direction (Gm : M3 ℝ) (dir : V3 ℝ) : V3 ℝ := MpbData.unit (Gm.mulVec dir)

/-- `compute_1_group_velocity`, mpb/mpb.c:995-1006: `comp` is `compute_1_group_velocity_component` for the band, as a function
of its first argument. -/
noncomputable def groupVelocity1 (Rm : M3 ℝ) (comp : V3 ℝ → ℝ) : V3 ℝ :=
  let RmT := Rm.transpose
  ⟨comp (RmT.mulVec ⟨1, 0, 0⟩), comp (RmT.mulVec ⟨0, 1, 0⟩), comp (RmT.mulVec ⟨0, 0, 1⟩)⟩

/-- `compute_1_group_velocity_reciprocal`, mpb/mpb.c:1011-1015. -/
noncomputable def groupVelocityReciprocal (Rm Gm : M3 ℝ) (comp : V3 ℝ → ℝ) : V3 ℝ :=
  Gm.transpose.mulVec (groupVelocity1 Rm comp)

/-! ### The fields -/

/-- `evectmatrix_copy_slice`, evectmatrix.c:45-61: `num` columns of `Y` (width `py`) from column `iy` to column `ix` of `X`
(width `px`). -/
noncomputable def copyCols (n px py : ℕ) (Y X : ℕ → ℂ) (ix iy num : ℕ) : ℕ → ℂ :=
  writes ((loop2 n num).map fun t => (t.1 * px + t.2 + ix, Y (t.1 * py + t.2 + iy))) X

/-- `maxwell_compute_H_from_B`, maxwell_op.c:544-582: bands `bstart ..` of `Bin` (width `pin`) to bands `hstart ..` of `Hout`
(width `pout`).  The result is the new content of the array of `Hout`.  `same`: the two matrices are the same array
(`Bin.data == Hout.data`); the input is read completely before the output is written.  `buf` is the old content of the FFT
buffer, assumed large enough (C65). -/
noncomputable def HFromB (d : OpData) (same : Bool) (pin pout : ℕ) (Bin Hout buf : ℕ → ℂ) (bstart hstart num : ℕ) : ℕ → ℂ :=
  match d.muInv with
  | none => if same then Hout else copyCols (d.N * 2) pout pin Bin Hout hstart bstart num
  | some mu =>
    let h := eFromD d.N num mu (hFromH d pin Bin buf bstart num)
    storeBands c2t d.od d.ld d.kpg pout (computeFft d.Wb d.N (num * 3) h h) Hout hstart num (1 / (d.N : ℝ))

/-- `matrix_XtY_diag_real`, matrices.c:98-111: entry `j`. -/
noncomputable def xtyDiagReal (X Y : ℕ → ℂ) (n p j : ℕ) : ℝ :=
  ∑ i ∈ Finset.range n, ((X (i * p + j)).re * (Y (i * p + j)).re + (X (i * p + j)).im * (Y (i * p + j)).im)

open Classical in
/-- The division by the frequency, mpb/mpb.c:937-944 and 984-989; `neg` is `negative_epsilon_okp`. -/
noncomputable def scaleByFreq (neg : Bool) (freq v : ℝ) : ℝ :=
  if freq = 0 then 0 else v / (if neg then Real.sqrt |freq| else freq)

/-- What the group velocity functions work on. -/
structure VData where
  d : OpData
  /-- `num_bands` -/
  p : ℕ
  /-- `Hblock.alloc_p` -/
  alloc : ℕ
  /-- `Hblock.data == H.data` -/
  same : Bool
  /-- `negative_epsilon_okp` -/
  neg : Bool
  freqs : ℕ → ℝ

/-- The number of bands of a block: `Hblock.p` after the resize of mpb/mpb.c:904-908. -/
def VData.num (v : VData) (ib : ℕ) : ℕ := min v.alloc (v.p - ib)

/-- The content of `Hblock` after `maxwell_compute_H_from_B` (mpb/mpb.c:909-911). -/
noncomputable def VData.block (v : VData) (H Hb buf : ℕ → ℂ) (ib : ℕ) : ℕ → ℂ :=
  HFromB v.d v.same v.p (v.num ib) H (if v.same then H else Hb) buf ib 0 (v.num ib)

/-- The arrays during the loop: `H`, `Hblock` (when separate) and `group_v.items`. -/
structure VState where
  H : ℕ → ℂ
  Hb : ℕ → ℂ
  gv : ℕ → ℝ

/-- One pass of the loop over blocks, mpb/mpb.c:903-921.  `bufs ib` gives the arbitrary old contents of the FFT buffers of that
pass, `W0` the old content of `W[0]`. -/
noncomputable def blockStep (v : VData) (u : V3 ℝ) (bufs : ℕ → ℕ → ℕ → ℂ) (W0 : ℕ → ℂ) (s : VState) (ib : ℕ) : Option VState :=
  let X := v.block s.H s.Hb (bufs ib 0) ib
  (ucrossOperator v.d u (v.num ib) (fun i => bufs ib (i + 1)) X W0).map fun Wr =>
    { H := if v.same then X else s.H
      Hb := X
      gv := fun b => if ib ≤ b ∧ b < ib + v.num ib then xtyDiagReal X Wr (v.d.N * 2) (v.num ib) (b - ib) else s.gv b }

/-- The block starts `ib = 0, alloc_p, 2 alloc_p, …` below `num_bands` (mpb/mpb.c:903). -/
def blockStarts (alloc p ib : ℕ) : List ℕ := if ib < p ∧ 0 < alloc then ib :: blockStarts alloc p (ib + alloc) else []
termination_by p - ib

/-- `compute_group_velocity_component`, mpb/mpb.c:870-947, for a Cartesian unit vector `u` (see `direction`): the new content of
`H` and the list of velocities, as a function of the band.  `none`: a loop does not terminate. -/
noncomputable def component (v : VData) (u : V3 ℝ) (bufs : ℕ → ℕ → ℕ → ℂ) (W0 : ℕ → ℂ) (Hb H : ℕ → ℂ) (junk : ℕ → ℝ) :
    Option ((ℕ → ℂ) × (ℕ → ℝ)) :=
  if v.alloc = 0 ∧ 0 < v.p then none
  else ((blockStarts v.alloc v.p 0).foldlM (blockStep v u bufs W0) ⟨H, Hb, junk⟩).map fun s =>
    (s.H, fun b => scaleByFreq v.neg (v.freqs b) (s.gv b))

/-- `compute_1_group_velocity_component`, mpb/mpb.c:950-992, for the band with index `ib = b - 1`: `W[1]` receives one column. -/
noncomputable def component1 (v : VData) (u : V3 ℝ) (bufs : ℕ → ℕ → ℂ) (W0 W1 H : ℕ → ℂ) (ib : ℕ) : Option ℝ :=
  let X := HFromB v.d false v.p 1 H W1 (bufs 0) ib 0 1
  (ucrossOperator v.d u 1 (fun i => bufs (i + 1)) X W0).map fun Wr =>
    scaleByFreq v.neg (v.freqs ib) (xtyDiagReal X Wr (v.d.N * 2) 1 0)

/-- `compute-group-velocities`, mpb/mpb.scm.in:367-374: three calls of `compute_group_velocity_component` in some order (Scheme
does not fix the order of the bindings of a `let`; `ux uy uz` are the unit vectors of the three directions, evaluated in this
order), each on the `H` left by the one before. -/
noncomputable def groupVelocities (v : VData) (ux uy uz : V3 ℝ) (bufs : ℕ → ℕ → ℕ → ℕ → ℂ) (W0 Hb : ℕ → ℕ → ℂ) (H : ℕ → ℂ)
    (junk : ℕ → ℕ → ℝ) : Option ((ℕ → ℂ) × (ℕ → V3 ℝ)) := do
  let (H1, vx) ← component v ux (bufs 0) (W0 0) (Hb 0) H (junk 0)
  let (H2, vy) ← component v uy (bufs 1) (W0 1) (Hb 1) H1 (junk 1)
  let (H3, vz) ← component v uz (bufs 2) (W0 2) (Hb 2) H2 (junk 2)
  return (H3, fun b => ⟨vx b, vy b, vz b⟩)

end Mpb.Velocity

import Verif.RealBuild.Model
import Verif.Velocity.Model

/-!
# Model of the group velocity functions in the build for structures with inversion symmetry (mpb/mpb.c:865-1015)

As `Verif/Velocity/Model.lean`, with real amplitudes.  Serial, FFTW 3.
-/

namespace Mpb.RealBuild
open Mpb.Maxwell Mpb.Velocity

/-- `assign_ucross_t2c`, maxwell_op.c:134-164, without `SCALAR_COMPLEX`. -/
def ucrossT2cR (u : V3 ℝ) (k : KData) (v0 v1 : ℝ) : V3 ℝ :=
  let vx := v0 * k.m.x + v1 * k.n.x
  let vy := v0 * k.m.y + v1 * k.n.y
  let vz := v0 * k.m.z + v1 * k.n.z
  ⟨u.y * vz - u.z * vy, u.z * vx - u.x * vz, u.x * vy - u.y * vx⟩

/-- `maxwell_ucross_op`, maxwell_op.c:1287-1334. -/
noncomputable def ucrossOperatorR (w : Fftw) (d : RData) (u : V3 ℝ) (p : ℕ) (bufs : ℕ → ℕ → ℝ) (Xin Xout : ℕ → ℝ) : Option (ℕ → ℝ) :=
  if d.nfb = 0 ∧ 0 < p then none
  else some ((bandChunks d.nfb p 0).foldl (fun X ch =>
    let e := eFromDR (fftOutputSize d.nx d.ny d.nz) ch.2 d.epsInv (fromHR (ucrossT2cR u) d p Xin (bufs ch.1) ch.1 ch.2)
    toHR crossC2tR w d p X e ch.1 ch.2 (-1 / (d.N : ℝ))) Xout)

/-- `evectmatrix_copy_slice`, evectmatrix.c:45-61. -/
def copyColsR (n px py : ℕ) (Y X : ℕ → ℝ) (ix iy num : ℕ) : ℕ → ℝ :=
  writes ((loop2 n num).map fun t => (t.1 * px + t.2 + ix, Y (t.1 * py + t.2 + iy))) X

/-- `maxwell_compute_H_from_B`, maxwell_op.c:544-582. -/
noncomputable def HFromBR (w : Fftw) (d : RData) (same : Bool) (pin pout : ℕ) (Bin Hout buf : ℕ → ℝ) (bstart hstart num : ℕ) : ℕ → ℝ :=
  match d.muInv with
  | none => if same then Hout else copyColsR (d.N * 2) pout pin Bin Hout hstart bstart num
  | some mu => toHR c2tR w d pout Hout (eFromDR (fftOutputSize d.nx d.ny d.nz) num mu (fromHR t2cR d pin Bin buf bstart num)) hstart num (1 / (d.N : ℝ))

/-- `matrix_XtY_diag_real`, matrices.c:98-111: `SCALAR_IM` is 0 (scalar.h). -/
def xtyDiagRealR (X Y : ℕ → ℝ) (n p j : ℕ) : ℝ := ∑ i ∈ Finset.range n, (X (i * p + j) * Y (i * p + j) + 0 * 0)

/-- What the group velocity functions work on. -/
structure VDataR where
  d : RData
  /-- `num_bands` -/
  p : ℕ
  /-- `Hblock.alloc_p` -/
  alloc : ℕ
  /-- `Hblock.data == H.data` -/
  same : Bool
  /-- `negative_epsilon_okp` -/
  neg : Bool
  freqs : ℕ → ℝ

/-- `Hblock.p` after the resize of mpb/mpb.c:904-908. -/
def VDataR.num (v : VDataR) (ib : ℕ) : ℕ := min v.alloc (v.p - ib)

/-- The content of `Hblock` after `maxwell_compute_H_from_B` (mpb/mpb.c:909-911). -/
noncomputable def VDataR.block (w : Fftw) (v : VDataR) (H Hb buf : ℕ → ℝ) (ib : ℕ) : ℕ → ℝ :=
  HFromBR w v.d v.same v.p (v.num ib) H (if v.same then H else Hb) buf ib 0 (v.num ib)

/-- The arrays during the loop: `H`, `Hblock` (when separate) and `group_v.items`. -/
structure VStateR where
  H : ℕ → ℝ
  Hb : ℕ → ℝ
  gv : ℕ → ℝ

/-- One pass of the loop over blocks, mpb/mpb.c:903-921. -/
noncomputable def blockStepR (w : Fftw) (v : VDataR) (u : V3 ℝ) (bufs : ℕ → ℕ → ℕ → ℝ) (W0 : ℕ → ℝ) (s : VStateR) (ib : ℕ) : Option VStateR :=
  let X := v.block w s.H s.Hb (bufs ib 0) ib
  (ucrossOperatorR w v.d u (v.num ib) (fun i => bufs ib (i + 1)) X W0).map fun Wr =>
    { H := if v.same then X else s.H
      Hb := X
      gv := fun b => if ib ≤ b ∧ b < ib + v.num ib then xtyDiagRealR X Wr (v.d.N * 2) (v.num ib) (b - ib) else s.gv b }

/-- `compute_group_velocity_component`, mpb/mpb.c:870-947. -/
noncomputable def componentR (w : Fftw) (v : VDataR) (u : V3 ℝ) (bufs : ℕ → ℕ → ℕ → ℝ) (W0 Hb H : ℕ → ℝ) (junk : ℕ → ℝ) :
    Option ((ℕ → ℝ) × (ℕ → ℝ)) :=
  if v.alloc = 0 ∧ 0 < v.p then none
  else ((blockStarts v.alloc v.p 0).foldlM (blockStepR w v u bufs W0) ⟨H, Hb, junk⟩).map fun s =>
    (s.H, fun b => scaleByFreq v.neg (v.freqs b) (s.gv b))

/-- `compute_1_group_velocity_component`, mpb/mpb.c:950-992. -/
noncomputable def component1R (w : Fftw) (v : VDataR) (u : V3 ℝ) (bufs : ℕ → ℕ → ℝ) (W0 W1 H : ℕ → ℝ) (ib : ℕ) : Option ℝ :=
  let X := HFromBR w v.d false v.p 1 H W1 (bufs 0) ib 0 1
  (ucrossOperatorR w v.d u 1 (fun i => bufs (i + 1)) X W0).map fun Wr =>
    scaleByFreq v.neg (v.freqs ib) (xtyDiagRealR X Wr (v.d.N * 2) 1 0)

/-- `compute-group-velocities`, mpb/mpb.scm.in:367-374. -/
noncomputable def groupVelocitiesR (w : Fftw) (v : VDataR) (ux uy uz : V3 ℝ) (bufs : ℕ → ℕ → ℕ → ℕ → ℝ) (W0 Hb : ℕ → ℕ → ℝ) (H : ℕ → ℝ)
    (junk : ℕ → ℕ → ℝ) : Option ((ℕ → ℝ) × (ℕ → V3 ℝ)) := do
  let (H1, vx) ← componentR w v ux (bufs 0) (W0 0) (Hb 0) H (junk 0)
  let (H2, vy) ← componentR w v uy (bufs 1) (W0 1) (Hb 1) H1 (junk 1)
  let (H3, vz) ← componentR w v uz (bufs 2) (W0 2) (Hb 2) H2 (junk 2)
  return (H3, fun b => ⟨vx b, vy b, vz b⟩)

end Mpb.RealBuild

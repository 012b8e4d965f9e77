import Verif.Dist.Model
import Verif.Field.EnergyModel

/-!
# The field functions on several processes (mpb/fields.c:52-350, complex build)

Each process holds the part of the field at its rows of the second dimension of the grid, in the order y, x, z.
-/

namespace Mpb.Dist

open Mpb.Maxwell Mpb.Field

variable {P : ℕ}

/-- One band expanded by `ex` and transformed to real space, `maxwell_compute_d_from_H` (maxwell_op.c:398-431) for `ex = crossT2c` and
`maxwell_compute_h_from_H` (maxwell_op.c:508-542) for `ex = t2c`, with one band; `buf` is the old content of the FFT buffer. -/
noncomputable def toSpace (ex : KData → ℂ → ℂ → V3 ℂ) (d : OpData P) (p : ℕ) (Hin buf : Fin P → ℕ → ℂ) (b : ℕ) : Fin P → ℕ → ℂ :=
  fftForward d.Wf d.lx d.ly d.nx d.ny d.nz (1 * 3) (fun r => fillFft ex (d.od r) d.ld (d.kpg r) p (Hin r) (buf r) b 1) buf

/-- `maxwell_compute_H_from_B(mdata, H, W[0], curfield, which_band-1, 0, 1)` (maxwell_op.c:544-582) with `mu_inv != NULL`, as called at
mpb/fields.c:76-77, 133-134. -/
noncomputable def oneFromB (d : OpData P) (mu : Fin P → ℕ → HMat) (p : ℕ) (H W0 buf : Fin P → ℕ → ℂ) (b : ℕ) : Fin P → ℕ → ℂ :=
  let h := fun r => eFromD (d.out r) 1 (mu r) (toSpace t2c d p H buf b r)
  fun r => storeBands c2t (d.od r) d.ld (d.kpg r) 1 (fftBackward d.Wb d.lx d.ly d.nx d.ny d.nz (1 * 3) h h r) (W0 r) 0 1 (1 / (d.N : ℝ))

/-- `get_dfield` after its checks, mpb/fields.c:71-106. -/
noncomputable def getD (d : OpData P) (p : ℕ) (H W0 buf buf2 : Fin P → ℕ → ℂ) (freqs : ℕ → ℝ) (Vol : ℝ) (b : ℕ) : Fin P → ℕ → ℂ :=
  let F := match d.muInv with
    | none => toSpace crossT2c d p H buf b
    | some mu => toSpace crossT2c d 1 (oneFromB d mu p H W0 buf b) buf2 0
  let scale := if freqs b ≠ 0 then -1 / freqs b else -1
  fun r => scaleField (d.out r) (scale / Real.sqrt Vol) (F r)

/-- `get_hfield` after its checks, mpb/fields.c:127-152. -/
noncomputable def getH (d : OpData P) (p : ℕ) (H W0 buf buf2 : Fin P → ℕ → ℂ) (Vol : ℝ) (b : ℕ) : Fin P → ℕ → ℂ :=
  let F := match d.muInv with
    | none => toSpace t2c d p H buf b
    | some mu => toSpace t2c d 1 (oneFromB d mu p H W0 buf b) buf2 0
  fun r => scaleField (d.out r) (1 / Real.sqrt Vol) (F r)

/-- `get_bfield` after its checks, mpb/fields.c:173-191. -/
noncomputable def getB (d : OpData P) (p : ℕ) (H buf : Fin P → ℕ → ℂ) (Vol : ℝ) (b : ℕ) : Fin P → ℕ → ℂ := fun r =>
  scaleField (d.out r) (1 / Real.sqrt Vol) (toSpace t2c d p H buf b r)

/-- `get_efield` after its checks, mpb/fields.c:194-210. -/
noncomputable def getE (d : OpData P) (p : ℕ) (H W0 buf buf2 : Fin P → ℕ → ℂ) (freqs : ℕ → ℝ) (Vol : ℝ) (b : ℕ) : Fin P → ℕ → ℂ := fun r =>
  eFromD (d.out r) 1 (d.epsInv r) (getD d p H W0 buf buf2 freqs Vol b r)

/-- The loop of `compute_field_energy_internal` on process `r`, mpb/fields.c:241-291. -/
noncomputable def energyLocal (d : OpData P) (ty : Char) (mems : Fin P → ℕ → ℝ) (r : Fin P) : EState :=
  energyLoop (energyField ty (d.epsInv r) (d.muInv.map (· r))) (fun _ => false) (d.out r) (mems r)

/-- The list `compute_field_energy` returns on every process, mpb/fields.c:293-350. -/
noncomputable def fieldEnergy (d : OpData P) (ty : Char) (Vol : ℝ) (mems : Fin P → ℕ → ℝ) : ℝ × (Fin 6 → ℝ) :=
  let energySum := allreduce fun r => (energyLocal d ty mems r).energySum
  let compSum := fun c => allreduce fun r => (energyLocal d ty mems r).compSum c
  (energySum * Vol / d.N, fun c => compSum c / (if energySum = 0 then 1 else energySum))

end Mpb.Dist

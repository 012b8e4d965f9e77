import Verif.RealBuild.Model

/-!
# Model of `get-dfield`, `get-hfield`, `get-bfield` in the build for structures with inversion symmetry

`curfield` is the FFT buffer, `fft_output_size` complex vectors: half of the points of the cell.  Serial, FFTW 3.
-/

namespace Mpb.RealBuild
open Mpb.Maxwell Mpb.Field

/-- The stored part of the cell: `nx`, `ny`, `nz`, `SCALAR_COMPLEX` not defined, `last_dim_size` (maxwell.c:83). -/
def RData.shape (d : RData) : Shape := ⟨d.nx, d.ny, d.nz, true, lastDimSize d.nx d.ny d.nz⟩

/-- The loop `curfield[i].re *= scale; curfield[i].im *= scale` for `i < 3*N`, `N = fft_output_size` (mpb/fields.c:90-105, 146-150, 185-189). -/
noncomputable def scaleR (size : ℕ) (scale : ℝ) (mem : ℕ → ℝ) (a : ℕ) : ℝ := if a < 2 * (3 * size) then mem a * scale else mem a

/-- `maxwell_compute_H_from_B(mdata, H, W[0], curfield, which_band-1, 0, 1)` with `W[0]` resized to one band (mpb/fields.c:76-77, 131-132;
maxwell_op.c:544-582), for `mu_inv != NULL`. -/
noncomputable def oneFromBR (w : Fftw) (d : RData) (mu : ℕ → HMat) (p : ℕ) (H W0 buf : ℕ → ℝ) (b : ℕ) : ℕ → ℝ :=
  toHR c2tR w d 1 W0 (eFromDR (fftOutputSize d.nx d.ny d.nz) 1 mu (fromHR t2cR d p H buf b 1)) 0 1 (1 / (d.N : ℝ))

/-- `get_dfield` after its checks (mpb/fields.c:71-106); band `b` counted from 0; `buf`, `buf2` are the old contents of the buffer at its
two uses. -/
noncomputable def getDR (w : Fftw) (d : RData) (p : ℕ) (H W0 buf buf2 : ℕ → ℝ) (freqs : ℕ → ℝ) (Vol : ℝ) (b : ℕ) : ℕ → ℝ :=
  let F := match d.muInv with
    | none => fromHR crossT2cR d p H buf b 1
    | some mu => fromHR crossT2cR d 1 (oneFromBR w d mu p H W0 buf b) buf2 0 1
  let scale := if freqs b ≠ 0 then -1 / freqs b else -1
  scaleR (fftOutputSize d.nx d.ny d.nz) (scale / Real.sqrt Vol) F

/-- `get_hfield` after its checks (mpb/fields.c:127-152). -/
noncomputable def getHR (w : Fftw) (d : RData) (p : ℕ) (H W0 buf buf2 : ℕ → ℝ) (Vol : ℝ) (b : ℕ) : ℕ → ℝ :=
  let F := match d.muInv with
    | none => fromHR t2cR d p H buf b 1
    | some mu => fromHR t2cR d 1 (oneFromBR w d mu p H W0 buf b) buf2 0 1
  scaleR (fftOutputSize d.nx d.ny d.nz) (1 / Real.sqrt Vol) F

/-- `get_bfield` after its checks (mpb/fields.c:173-191). -/
noncomputable def getBR (d : RData) (p : ℕ) (H buf : ℕ → ℝ) (Vol : ℝ) (b : ℕ) : ℕ → ℝ :=
  scaleR (fftOutputSize d.nx d.ny d.nz) (1 / Real.sqrt Vol) (fromHR t2cR d p H buf b 1)

end Mpb.RealBuild

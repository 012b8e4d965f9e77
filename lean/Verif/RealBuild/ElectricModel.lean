import Verif.RealBuild.FieldModel

/-! # Model of `get-efield` in the build for structures with inversion symmetry -/

namespace Mpb.RealBuild
open Mpb.Maxwell Mpb.Field

/-- `get_efield` after its checks (mpb/fields.c:194-210): `get_dfield`, then `maxwell_compute_e_from_d(mdata, curfield, 1)` in place, on the
`fft_output_size` vectors stored. -/
noncomputable def getER (w : Fftw) (d : RData) (p : ℕ) (H W0 buf buf2 : ℕ → ℝ) (freqs : ℕ → ℝ) (Vol : ℝ) (b : ℕ) : ℕ → ℝ :=
  eFromDR (fftOutputSize d.nx d.ny d.nz) 1 d.epsInv (getDR w d p H W0 buf buf2 freqs Vol b)

end Mpb.RealBuild

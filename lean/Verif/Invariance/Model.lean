import Verif.Maxwell.Planewave
import Verif.Velocity.Model
import Verif.Moment.Model
import Mathlib.Analysis.SpecialFunctions.Complex.Circle

/-!
# Model: from a lattice, a wavevector and stored tensors to the operator

The pieces (`latticeGm`, `kpgArr`, `OpData`, `getMomentMesh`, `setDielectric`) are those of the other areas; this file only puts them
together as mpb/medium.c, mpb/mpb.c and maxwell.c do, and fills in the transform matrices.
-/

namespace Mpb.Invariance
open Mpb.Maxwell

/-- The matrix of FFTW's unnormalised three-dimensional transform over an array of `nx * ny * nz` numbers in row-major order (FFTW
manual, "What FFTW really computes"): `exp(sgn 2πi (x x'/nx + y y'/ny + z z'/nz))`, `sgn = -1` for `FFTW_FORWARD`, `+1` for
`FFTW_BACKWARD`. -/
noncomputable def dft (sgn : ℝ) (nx ny nz : ℕ) (a b : ℕ) : ℂ :=
  Complex.exp (((sgn * (2 * Real.pi) * ((a / nz / ny : ℕ) * (b / nz / ny : ℕ) / nx + (a / nz % ny : ℕ) * (b / nz % ny : ℕ) / ny +
    (a % nz : ℕ) * (b % nz : ℕ) / nz) : ℝ) : ℂ) * Complex.I)

/-- What the user gives: grid, FFT batch size, lattice vectors (columns of `Rm`), wavevector in the basis of the reciprocal vectors,
stored inverse tensors. -/
structure Problem where
  nx : ℕ
  ny : ℕ
  nz : ℕ
  nfb : ℕ
  Rm : M3 ℝ
  k : V3 ℝ
  epsInv : ℕ → HMat
  muInv : Option (ℕ → HMat)

/-- The `maxwell_data` of the problem.  Reciprocal vectors: mpb/medium.c:173 and 186 (column `i` of `Gm` is `G[i]`), passed on at
mpb/mpb.c:632 to `update_maxwell_data_k` (maxwell.c:411-512).  Transforms: `maxwell_compute_fft(+1)` executes `iplan`, an
`FFTW_FORWARD` transform, `-1` executes `plan`, `FFTW_BACKWARD` (maxwell_op.c:207-213, 256).  `other_dims * last_dim = nx ny nz`
(maxwell.c:65, 74); the split into two factors is immaterial to the operator, `nx ny` and `nz` are used. -/
noncomputable def Problem.data (P : Problem) : OpData :=
  let Gm := Velocity.latticeGm P.Rm
  ⟨P.nx * P.ny, P.nz, P.nfb, kpgArr P.nx P.ny P.nz Gm.c0 Gm.c1 Gm.c2 P.k, P.epsInv, P.muInv, dft (-1) P.nx P.ny P.nz, dft 1 P.nx P.ny P.nz⟩

/-- The call of `set_maxwell_dielectric` (mpb/medium.c:131; maxwell_eps.c:538-788) for the lattice `Rm`: the moment mesh is that of
the same lattice (maxwell_eps.c:575).  `none` if a `CHECK` of `get_moment_mesh` fails. -/
noncomputable def setupDielectric (fl : ℝ → ℝ) (md : Tensor.MData) (Rm : M3 ℝ) (ms : V3 ℤ) (epsilon : V3 ℝ → HMat × HMat)
    (mepsilon : Option (V3 ℝ → Option HMat)) : Option (Tensor.Res Tensor.MData) :=
  (Moment.getMomentMesh fl ⟨md.nx, md.ny, md.nz⟩ Rm (Velocity.latticeGm Rm)).map fun mesh =>
    Tensor.setDielectric md ⟨ms, Rm, mesh, epsilon, mepsilon⟩

end Mpb.Invariance

import Verif.RealBuild.Model
import Verif.Parity.Model

/-!
# Model of the parity projections and expectation values in the build for structures with inversion symmetry

src/maxwell/maxwell_constraints.c compiled without `SCALAR_COMPLEX`: `SCALAR_RE(u)` is `u`, `SCALAR_IM(u)` is `0`, and `ASSIGN_SCALAR(u, a, b)` is
`u = a` (src/matrices/scalar.h:188-191).  The amplitudes are stored for all planewaves, without padding.  Serial.
-/

namespace Mpb.RealBuild
open Mpb.Maxwell Mpb.Parity

/-- The body of the band loop of the projections, maxwell_constraints.c:104-120 (`su = zparity`) and 225-241 (`su = -yparity`). -/
noncomputable def pairStepR (su : ℝ) (p : ℕ) (mem : ℕ → ℝ) (c c2 b : ℕ) : ℕ → ℝ :=
  let u := mem ((c * 2) * p + b)
  let v := mem ((c * 2 + 1) * p + b)
  let u2 := mem ((c2 * 2) * p + b)
  let v2 := mem ((c2 * 2 + 1) * p + b)
  writes [((c * 2) * p + b, 0.5 * (u + su * u2)), ((c * 2 + 1) * p + b, 0.5 * (v - su * v2)), ((c2 * 2) * p + b, 0.5 * (u2 + su * u)),
    ((c2 * 2 + 1) * p + b, 0.5 * (v2 - su * v))] mem

/-- `maxwell_zparity_constraint`, maxwell_constraints.c:67-124. -/
noncomputable def zparityConstraintR (g : Grid) (parity : BitVec 32) (p : ℕ) (X : ℕ → ℝ) : ℕ → ℝ :=
  let zparity := parSign parity evenZ oddZ
  if zparity = 0 then X
  else if g.nz > 1 then
    let nxy := g.otherDims
    let nz := g.lastDim
    (loop3 nxy (nz / 2 + 1) p).foldl
      (fun mem t => pairStepR zparity p mem (t.1 * nz + t.2.1) (t.1 * nz + mir nz t.2.1) t.2.2) X
  else
    let nxy := g.otherDims * g.lastDim
    if zparity = 1 then
      writes ((loop2 nxy p).map fun t => ((t.1 * 2 + 1) * p + t.2, (0 : ℝ))) X
    else if zparity = -1 then
      writes ((loop2 nxy p).map fun t => ((t.1 * 2) * p + t.2, (0 : ℝ))) X
    else X

/-- `maxwell_yparity_constraint`, maxwell_constraints.c:200-246. -/
noncomputable def yparityConstraintR (g : Grid) (parity : BitVec 32) (p : ℕ) (X : ℕ → ℝ) : ℕ → ℝ :=
  let yparity := parSign parity evenY oddY
  if yparity = 0 then X
  else
    ((loop2 g.nx (g.ny / 2 + 1)).flatMap fun ij => (loop2 g.nz p).map fun kb => (ij, kb)).foldl
      (fun mem t =>
        let ij := t.1.1 * g.ny + t.1.2
        let ij2 := t.1.1 * g.ny + mir g.ny t.1.2
        pairStepR (-yparity) p mem (ij * g.nz + t.2.1) (ij2 * g.nz + t.2.1) t.2.2) X

/-- `maxwell_parity_constraint`, maxwell_constraints.c:31-42. -/
noncomputable def parityConstraintR (g : Grid) (parity : BitVec 32) (p : ℕ) (X : ℕ → ℝ) : ℕ → ℝ :=
  let X := if has parity (evenZ ||| oddZ) then zparityConstraintR g parity p X else X
  if has parity (evenY ||| oddY) then yparityConstraintR g parity p X else X

/-- `maxwell_zparity`, maxwell_constraints.c:132-190: the value returned for band `b`. -/
noncomputable def zparityR (g : Grid) (p : ℕ) (X : ℕ → ℝ) (b : ℕ) : ℝ :=
  let nxy := if g.nz > 1 then g.otherDims else g.otherDims * g.lastDim
  let nz := if g.nz > 1 then g.lastDim else 1
  let acc := (loop2 nxy (nz / 2 + 1)).foldl (fun (st : ℝ × ℝ) t =>
    let ij := t.1 * nz + t.2
    let ij2 := t.1 * nz + mir nz t.2
    let u := X ((ij * 2) * p + b)
    let v := X ((ij * 2 + 1) * p + b)
    let u2 := X ((ij2 * 2) * p + b)
    let v2 := X ((ij2 * 2 + 1) * p + b)
    let w : ℝ := if ij = ij2 then 1 else 2
    (st.1 + w * (u * u2 - v * v2), st.2 + w * (u * u + v * v))) (0, 0)
  acc.1 / acc.2

/-- `maxwell_yparity`, maxwell_constraints.c:254-312: the value returned for band `b`. -/
noncomputable def yparityR (g : Grid) (p : ℕ) (X : ℕ → ℝ) (b : ℕ) : ℝ :=
  let acc := (loop3 g.nx (g.ny / 2 + 1) g.nz).foldl (fun (st : ℝ × ℝ) t =>
    let ijk := (t.1 * g.ny + t.2.1) * g.nz + t.2.2
    let ijk2 := (t.1 * g.ny + mir g.ny t.2.1) * g.nz + t.2.2
    let u := X ((ijk * 2) * p + b)
    let v := X ((ijk * 2 + 1) * p + b)
    let u2 := X ((ijk2 * 2) * p + b)
    let v2 := X ((ijk2 * 2 + 1) * p + b)
    let w : ℝ := if ijk = ijk2 then 1 else 2
    (st.1 + w * (v * v2 - u * u2), st.2 + w * (v * v + u * u))) (0, 0)
  acc.1 / acc.2

/-- `maxwell_zero_k_set_const_bands`, maxwell_constraints.c:343-379 (one process); `n` rows. -/
noncomputable def setConstBandsR (parity : BitVec 32) (n p : ℕ) (X : ℕ → ℝ) : ℕ → ℝ :=
  if p < 1 then X
  else
    let num := numConstBands parity p
    let X := writes ((loop2 n num).map fun t => (t.1 * p + t.2, (0 : ℝ))) X
    let m := mBand parity
    let nb := nBand parity
    let X := if m ≠ 0 then writes [(0, (1 : ℝ)), (p, 0)] X else X
    if nb ≠ 0 ∧ (m = 0 ∨ p ≥ 2) then writes [(m, (0 : ℝ)), (p + m, 1)] X else X

/-- `maxwell_zero_k_constraint`, maxwell_constraints.c:383-395 (one process). -/
noncomputable def zeroKConstraintR (p : ℕ) (X : ℕ → ℝ) : ℕ → ℝ :=
  (List.range p).foldl (fun mem j => writes [(j, (0 : ℝ)), (p + j, 0)] mem) X

end Mpb.RealBuild

import Verif.Core.Vec
import Mathlib.Analysis.SpecialFunctions.Complex.Arg
import Mathlib.Algebra.BigOperators.Group.List.Basic

/-!
# Model of `fix-field-phase` (mpb/fields.c:421-545)

Numbers are exact.  The field of one process is the list of its `N = 3*fft_output_size` complex components.
-/

namespace Mpb.Field.FixPhase

/-- One process: `local_y_start` and the components it stores. -/
structure PProc where
  y0 : ℕ
  f : List ℂ

/-- `sq_sum2` of one process (mpb/fields.c:459-464). -/
noncomputable def sqSum (f : List ℂ) : ℂ := (f.map fun z => (⟨z.re * z.re - z.im * z.im, 2 * z.re * z.im⟩ : ℂ)).sum

/-- `theta` and `phase` (mpb/fields.c:470-472): `atan2(-s1, s0)` is the argument of `s0 - i s1`. -/
noncomputable def phase0 (s : ℂ) : ℂ :=
  let theta := 0.5 * Complex.arg ⟨s.re, -s.im⟩
  ⟨Real.cos theta, Real.sin theta⟩

/-- The number whose sign is fixed (mpb/fields.c:494-498, 506-510); `inv` is the inversion-symmetric build. -/
def rval (inv : Bool) (ph z : ℂ) : ℝ := if inv then z.re - z.im else z.re * ph.re - z.im * ph.im

/-- The loop computing `maxabs` (mpb/fields.c:493-501). -/
noncomputable def maxAbs (rs : List ℝ) : ℝ := rs.foldl (fun m r => if |r| > m then |r| else m) 0

/-- The search from the end for `|r| >= maxabs/2` (mpb/fields.c:504-517): index and value. -/
noncomputable def lastBig (m : ℝ) (rs : List ℝ) : Option (ℝ × ℕ) :=
  rs.zipIdx.reverse.find? fun t => decide (|t.1| ≥ 0.5 * m)

/-- `maxabs_index`, `maxabs_sign` of one process (mpb/fields.c:444, 504-519), with the global offset added if a point was
found.  `nxz = nx*nz`. -/
noncomputable def localSign (m : ℝ) (nxz y0 : ℕ) (rs : List ℝ) : ℕ × ℤ :=
  match lastBig m rs with
  | some t => (t.2 + y0 * nxz, if t.1 < 0 then -1 else 1)
  | none => (0, 1)

/-- `MPI_MAXLOC` on pairs of ints (MPI standard): the larger first component; on ties the smaller second one. -/
def maxlocOp (a b : ℕ × ℤ) : ℕ × ℤ := if a.1 > b.1 then a else if b.1 > a.1 then b else (a.1, min a.2 b.2)

/-- The reduction over all processes (one process: the value itself). -/
def maxloc : List (ℕ × ℤ) → ℕ × ℤ
  | [] => (0, 1)
  | a :: l => l.foldl maxlocOp a

/-- The phase before the sign (mpb/fields.c:456-476). -/
noncomputable def basePhase (inv : Bool) (ps : List PProc) : ℂ :=
  if inv then 1 else phase0 (ps.map fun p => sqSum p.f).sum

/-- The global `maxabs` (mpb/fields.c:493-503). -/
noncomputable def globalMax (inv : Bool) (ph : ℂ) (ps : List PProc) : ℝ :=
  (ps.map fun p => maxAbs (p.f.map (rval inv ph))).foldl max 0

/-- The global sign (mpb/fields.c:504-525). -/
noncomputable def globalSign (inv : Bool) (nxz : ℕ) (ph : ℂ) (ps : List PProc) : ℤ :=
  (maxloc (ps.map fun p => localSign (globalMax inv ph ps) nxz p.y0 (p.f.map (rval inv ph)))).2

/-- The phase everything is multiplied with (mpb/fields.c:526-527). -/
noncomputable def fixPhase (inv : Bool) (nxz : ℕ) (ps : List PProc) : ℂ :=
  let ph := basePhase inv ps
  let s := globalSign inv nxz ph ps
  ⟨ph.re * s, ph.im * s⟩

/-- The multiplication of the field (mpb/fields.c:535-540). -/
noncomputable def mulField (ph : ℂ) (f : List ℂ) : List ℂ :=
  f.map fun z => ⟨z.re * ph.re - z.im * ph.im, z.re * ph.im + z.im * ph.re⟩

/-- `fix-field-phase` on the field of all processes. -/
noncomputable def fix (inv : Bool) (nxz : ℕ) (ps : List PProc) : List (List ℂ) :=
  ps.map fun p => mulField (fixPhase inv nxz ps) p.f

/-- One iteration of the loop over the eigenvector (mpb/fields.c:541-544); `none`: an access before the start of the array. -/
noncomputable def scaleStep (p : ℕ) (band : ℕ) (ph : ℂ) (H : ℕ → ℂ) (i : ℕ) : Option (ℕ → ℂ) :=
  let a : ℤ := (i : ℤ) * p + band - 1
  if a < 0 then none else some (Function.update H a.toNat (H a.toNat * ph))

/-- The loop over the eigenvector (mpb/fields.c:541-544) with `n` rows of `p` bands. -/
noncomputable def scaleBand (n p band : ℕ) (ph : ℂ) (H : ℕ → ℂ) : Option (ℕ → ℂ) :=
  (List.range n).foldlM (scaleStep p band ph) H

end Mpb.Field.FixPhase

import Verif.Mat.Model

/-!
# Model of the block loop of solve_kpoint (mpb.c:586-842), and of the block size of init_params

Memory-level model on the heap of `Verif.Mat`.  The eigensolver, the operator `maxwell_muinv_operator` and `maxwell_zero_k_set_const_bands` are parameters.
Printing, parity and frequency output are left out; the constraint chain is modelled in `Verif.Solver.Deflate`.
-/

namespace Mpb.Solver

open Mat

/-- The block size chosen by `init_params`, mpb.c:429-440.  C division truncates; `none` is a division by zero. -/
def blockSize (ebs numBands : ℤ) : Option ℤ :=
  if ebs ≠ 0 ∧ ebs < numBands then
    if ebs < 0 then
      let b := Int.tdiv (numBands - ebs - 1) (-ebs)
      if b = 0 then none else some (Int.tdiv (numBands + b - 1) b)
    else some ebs
  else some numBands

/-- The parts `solve_kpoint` calls: the eigensolver (first band, block, deflation vectors `(Y, B Y, p)`; returns the heap and the eigenvalues), the inverse permeability
operator (input, output) and the filling in of the constant bands. -/
structure Env where
  solver : ℕ → EM → Option (EM × EM × ℕ) → Heap → Heap × (ℕ → ℝ)
  muinv : EM → EM → Heap → Heap
  setConst : EM → Heap → Heap

/-- The state of the block loop: `mnb` is `mdata->num_bands`. -/
structure LoopState where
  Hblock : EM
  BY : EM
  mnb : ℕ
  vals : ℕ → ℝ
  h : Heap

/-- `for (in ...) for (ip = 0; ip < Hblock.p; ++ip) Hblock.data[in * Hblock.p + ip] = H.data[in * H.p + ip + off]`, mpb.c:691-695. -/
def copyIn (Hb H : EM) (off : ℕ) (h : Heap) : Heap :=
  (loop2 Hb.n Hb.p).foldl (fun h t => wr h Hb.data (t.1 * Hb.p + t.2) (rd h H.data (t.1 * H.p + t.2 + off))) h

/-- The copy back, mpb.c:769-775. -/
def copyOut (Hb H : EM) (off : ℕ) (h : Heap) : Heap :=
  (loop2 Hb.n Hb.p).foldl (fun h t => wr h H.data (t.1 * H.p + t.2 + off) (rd h Hb.data (t.1 * Hb.p + t.2))) h

/-- `eigvals + ib` filled by the eigensolver. -/
def setVals (vals : ℕ → ℝ) (ib p : ℕ) (v : ℕ → ℝ) (i : ℕ) : ℝ := if ib ≤ i ∧ i < ib + p then v (i - ib) else vals i

/-- One pass through the block loop, mpb.c:664-782. -/
def blockStep (env : Env) (H : EM) (nb ib0 ib : ℕ) (s : LoopState) : Option LoopState :=
  (if ib + s.mnb > nb then (emResize s.Hblock (nb - ib) false s.h).map fun r => (r.1, nb - ib, r.2) else some (s.Hblock, s.mnb, s.h)).bind fun r =>
  let Hb := r.1
  let mnb := r.2.1
  let h := r.2.2
  if Hb.data ≠ H.data then
    let h := copyIn Hb H (ib - ib0) h
    let p := ib - ib0
    (if p > 0 then
        (if s.BY.data ≠ H.data then (emResize s.BY p false h).map fun r => (r.1, env.muinv H r.1 r.2) else some (s.BY, h)).map fun r =>
          (r.1, some (H, r.1, p), r.2)
      else some (s.BY, none, h)).map fun d =>
    let o := env.solver ib Hb d.2.1 d.2.2
    { Hblock := Hb, BY := d.1, mnb := mnb, vals := setVals s.vals ib Hb.p o.2, h := copyOut Hb H (ib - ib0) o.1 }
  else
    let o := env.solver ib Hb none h
    some { Hblock := Hb, BY := s.BY, mnb := mnb, vals := setVals s.vals ib Hb.p o.2, h := o.1 }

/-- The block loop, mpb.c:664-782: `for (ib = ib0; ib < num_bands; ib += Hblock.alloc_p)`; `none` also for a loop that never ends (`alloc_p = 0`). -/
def blockLoop (env : Env) (H : EM) (nb ib0 allocP : ℕ) (ib : ℕ) (s : LoopState) : Option LoopState :=
  if hlt : ib < nb then
    if hap : 0 < allocP then
      (blockStep env H nb ib0 ib s).bind fun s => blockLoop env H nb ib0 allocP (ib + allocP) s
    else none
  else some s
termination_by nb - ib
decreasing_by omega

/-- `H.data[in * H.p + ip] = H.data[in * H.p + ip + ib0]`, mpb.c:645-649. -/
def shiftDown (H : EM) (ib0 : ℕ) (h : Heap) : Heap :=
  (loop2 H.n (H.p - ib0)).foldl (fun h t => wr h H.data (t.1 * H.p + t.2) (rd h H.data (t.1 * H.p + t.2 + ib0))) h

/-- The index pairs of `for (in = 0; ...) for (ip = H.p - ib0 - 1; ip >= 0; --ip)`. -/
def upPairs (n m : ℕ) : List (ℕ × ℕ) := (List.range n).flatMap fun i => (List.range m).reverse.map fun j => (i, j)

/-- `H.data[in * H.p + ip + ib0] = H.data[in * H.p + ip]`, mpb.c:792-794. -/
def shiftUp (H : EM) (ib0 : ℕ) (h : Heap) : Heap :=
  (upPairs H.n (H.p - ib0)).foldl (fun h t => wr h H.data (t.1 * H.p + t.2 + ib0) (rd h H.data (t.1 * H.p + t.2))) h

/-- `solve_kpoint`, mpb.c:642-804, the eigenvector part: `nb` is `num_bands`, `zeroK` is `mdata->zero_k && !mtdata`, `ib0` the number of constant bands
(`maxwell_zero_k_num_const_bands`; 0 unless `zeroK`), `mnb` is `mdata->num_bands`. -/
def solveKpoint (env : Env) (nb : ℕ) (zeroK : Bool) (ib0 mnb : ℕ) (H Hblock muinvH : EM) (h : Heap) : Option (EM × EM × ℕ × Heap × (ℕ → ℝ)) :=
  (if zeroK then emResize H (H.p - ib0) true (shiftDown H ib0 h) else some (H, h)).bind fun r =>
  let H := r.1
  let s0 : LoopState := { Hblock := Hblock, BY := if muinvH.data ≠ H.data then muinvH else H, mnb := mnb, vals := fun _ => 0, h := r.2 }
  (blockLoop env H nb ib0 Hblock.allocP ib0 s0).bind fun s =>
  (if zeroK then
      (emResize H H.allocP true s.h).map fun r => (r.1, env.setConst r.1 (shiftUp r.1 ib0 r.2), fun i => if i < ib0 then 0 else s.vals i)
    else some (H, s.h, s.vals)).bind fun f =>
  (emResize s.Hblock s.Hblock.allocP false f.2.1).map fun q => (f.1, q.1, s.Hblock.allocP, q.2, f.2.2)

end Mpb.Solver

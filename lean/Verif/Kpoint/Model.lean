import Verif.Davidson.Model
import Verif.Target.Props

/-!
# Model of solve_kpoint as a whole (mpb/mpb.c:586-842)

The block loop with the real eigensolvers inside: `Eig.eigensolver` (or `Davidson.davidson`) is called for one block of bands after the
other, with the chain of constraints that the code builds.  Bands are lists of columns.  That the C arrays hold these lists is proved, at
memory level and for any eigensolver, in `Verif.Solver.BlockProps` (C19); `C93_memory` connects the two.

Outside the model, as parameters: what is outside `Verif.Eig` and `Verif.Davidson` (LAPACK, random numbers, timings), the Maxwell operator,
the preconditioners, the parity and zero-k constraints, the constant bands.  Printing and the output variables other than the frequencies
are left out.
-/

namespace Mpb.Kpoint

open Matrix Mpb.Solver Mpb.Eig

variable {N : ℕ}

/-- The coefficients of one band. -/
abbrev Vec (N : ℕ) := Fin N → ℂ

/-- What `solve_kpoint` finds set up.  `A` is `maxwell_operator`, `B` is `maxwell_muinv_operator` if there is a permeability; `parity` and
`zeroK` are the linear maps `maxwell_parity_constraint` and (if `mdata->zero_k`) `maxwell_zero_k_constraint`; `target` is the target
frequency if `mtdata` is set; `K` and `dK` are the preconditioner as called by the two eigensolvers; `consts` are the columns written by
`maxwell_zero_k_set_const_bands`, given the number of bands. -/
structure Problem (N : ℕ) where
  A : Matrix (Fin N) (Fin N) ℂ
  B : Option (Matrix (Fin N) (Fin N) ℂ)
  parity : Matrix (Fin N) (Fin N) ℂ
  zeroK : Option (Matrix (Fin N) (Fin N) ℂ)
  target : Option ℝ
  davidson : Bool
  K : ∀ p, M N p → M N p → Sq p → M N p
  dK : ∀ p, M N p → M N p → (Fin p → ℝ) → M N p
  nWork : ℕ
  tol : ℝ
  fl : Flags
  scratch : Bool
  consts : ℕ → List (Vec N)
  negativeOK : Bool

/-- Everything outside the model, for the block that starts with band `ib` and has `p` bands.  `noInv`: what `sqmatrix_invert` leaves
behind when it fails. -/
structure Outside (N : ℕ) where
  eig : ∀ (_ : ℕ) (p : ℕ), Eig.Env N p
  dav : ∀ (_ : ℕ) (p : ℕ), Davidson.Env N p
  work : ∀ (_ : ℕ) (p : ℕ), ℕ → M N p
  noInv : ∀ (_ : ℕ) (p : ℕ), Sq p
  fuel : ℕ

/-- A list of columns as a bundle. -/
def bundle (l : List (Vec N)) : M N l.length := fun i j => l.get j i

/-- The columns of a bundle. -/
def columns {p : ℕ} (Y : M N p) : List (Vec N) := List.ofFn fun j i => Y i j

/-- The operator `B`, or the identity. -/
def Problem.Bm (pb : Problem N) : Matrix (Fin N) (Fin N) ℂ := pb.B.getD 1

/-- `deflation_constraint`, mpb.c:556-580: `X := X - Y (B Y)ᴴ X` (as a matrix: `Solver.deflation_spec`). -/
def deflator (pb : Problem N) (solved : List (Vec N)) : Matrix (Fin N) (Fin N) ℂ := 1 - bundle solved * (pb.Bm * bundle solved)ᴴ

/-- The chain of constraints built for a block, mpb.c:680-706, the latest first: parity, then zero-k, then deflation against the bands
solved already, if there are any. -/
def constraints (pb : Problem N) (solved : List (Vec N)) : List (Matrix (Fin N) (Fin N) ℂ) :=
  let c := [pb.parity]
  let c := match pb.zeroK with
    | some Z => Z :: c
    | none => c
  if solved.length > 0 then deflator pb solved :: c else c

/-- `evectconstraint_chain_func`, eigensolver_utils.c:97-106: the constraints one after the other, the first link first. -/
def chain : List (Matrix (Fin N) (Fin N) ℂ) → Matrix (Fin N) (Fin N) ℂ
  | [] => 1
  | C :: cs => chain cs * C

/-- The call of the eigensolver for an operator, mpb.c:711-735, 744-767. -/
noncomputable def run (pb : Problem N) (o : Outside N) (A : Matrix (Fin N) (Fin N) ℂ) (C : Matrix (Fin N) (Fin N) ℂ) (ib : ℕ) {p : ℕ} (Y : M N p) :
    Option (M N p × (Fin p → ℝ)) :=
  if pb.davidson then
    (Davidson.davidson ⟨A, some (pb.dK p), some C, pb.nWork, pb.tol, 0⟩ (o.dav ib p) o.fuel Y (o.work ib p)).map fun s => (s.Y, s.vals)
  else
    (Eig.eigensolver ⟨A, pb.B, some (pb.K p), some C, pb.nWork, pb.tol, pb.fl, pb.scratch⟩ (o.eig ib p) o.fuel Y (o.work ib p)).map fun s =>
      (s.Y, s.vals)

/-- `eigensolver_get_eigenvals`, eigensolver_utils.c:50-67: the result of `sqmatrix_invert` is not looked at. -/
def getEigenvals (o : Outside N) (A : Matrix (Fin N) (Fin N) ℂ) (ib : ℕ) {p : ℕ} (Y : M N p) : M N p × (Fin p → ℝ) :=
  let U := ((o.eig ib p).inv (Yᴴ * Y)).getD (o.noInv ib p)
  let W := Y * ((o.eig ib p).sqrtm U)ᴴ
  let V := (o.eig ib p).heev (Wᴴ * (A * W))
  (W * V.1ᴴ, V.2)

/-- The eigensolver part of a block, mpb.c:708-767.  `none`: a `CHECK` fails or the eigensolver aborts. -/
noncomputable def solveBundle (pb : Problem N) (o : Outside N) (C : Matrix (Fin N) (Fin N) ℂ) (ib : ℕ) {p : ℕ} (Y : M N p) : Option (M N p × (Fin p → ℝ)) :=
  match pb.target with
  | some w =>
    if pb.B.isSome then none
    else (run pb o (Target.squared pb.A w) C ib Y).bind fun r => if pb.nWork ≥ 2 then some (getEigenvals o pb.A ib r.1) else none
  | none => if pb.davidson ∧ pb.B.isSome then none else run pb o pb.A C ib Y

/-- One block, mpb.c:680-775: from the fields of the block to its bands and eigenvalues. -/
noncomputable def solveBlock (pb : Problem N) (o : Outside N) (ib : ℕ) (solved guess : List (Vec N)) : Option (List (Vec N) × List ℝ) :=
  (solveBundle pb o (chain (constraints pb solved)) ib (bundle guess)).map fun r => (columns r.1, List.ofFn r.2)

/-- The block loop, mpb.c:664-782: blocks of `blk = Hblock.alloc_p` bands, the last one smaller if necessary. -/
noncomputable def solveBlocks (pb : Problem N) (o : Outside N) (blk : ℕ) (hblk : 0 < blk) (ib : ℕ) (solved : List (Vec N)) (vals : List ℝ)
    (rest : List (Vec N)) : Option (List (Vec N) × List ℝ) :=
  if hr : rest = [] then some (solved, vals)
  else (solveBlock pb o ib solved (rest.take blk)).bind fun r => solveBlocks pb o blk hblk (ib + blk) (solved ++ r.1) (vals ++ r.2) (rest.drop blk)
termination_by rest.length
decreasing_by
  have := List.length_pos_iff.2 hr
  simp
  omega

/-- The constant bands that are not solved for, mpb.c:640-653: at k = 0 without a target. -/
def constBands (pb : Problem N) (nb : ℕ) : List (Vec N) := if pb.zeroK.isSome ∧ pb.target = none then pb.consts nb else []

/-- `solve_kpoint`, mpb.c:640-800, from the fields in `H` on entry: the fields in `H` on return and `eigvals`.  (For no bands the code
returns before anything happens, 605-608.) -/
noncomputable def solveKpoint (pb : Problem N) (o : Outside N) (blk : ℕ) (hblk : 0 < blk) (start : List (Vec N)) : Option (List (Vec N) × List ℝ) :=
  let c := constBands pb start.length
  (solveBlocks pb o blk hblk c.length [] [] (start.drop c.length)).map fun r => (c ++ r.1, List.replicate c.length 0 ++ r.2)

/-- The frequencies, mpb.c:826-829. -/
noncomputable def freqs (pb : Problem N) (vals : List ℝ) : List ℝ := vals.map fun v => if pb.negativeOK then v else Real.sqrt v

end Mpb.Kpoint

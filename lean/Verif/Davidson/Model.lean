import Verif.Eig.Model

/-!
# Model of the Davidson eigensolver (src/matrices/eigensolver_davidson.c)

Column bundles (`evectmatrix`) are Mathlib matrices, as in `Verif.Eig`.  The square matrices `VAV` and `S`, whose size changes from
iteration to iteration and of which blocks at computed offsets are read and written, are flat row-major arrays, as in the code.

Outside the model, as parameters: LAPACK (`inv`, `sqrtm`, `heev`), the contents left in scratch arrays.  Real arithmetic is exact.  The
messages and the clock (eigensolver_davidson.c:151-162) are left out.
-/

namespace Mpb.Davidson

open Matrix Mpb.Solver Mpb.Eig

/-- The arguments, eigensolver_davidson.c:55-62: the operator `A`, the preconditioner (a function of the residual, the block and its
eigenvalues; it is given an empty matrix for `YtY`, 98, 201), the constraint, the number of work arrays, the tolerance, the target. -/
structure Args (N p : ℕ) where
  A : Matrix (Fin N) (Fin N) ℂ
  K : Option (M N p → M N p → (Fin p → ℝ) → M N p)
  C : Option (Matrix (Fin N) (Fin N) ℂ)
  nWork : ℕ
  tol : ℝ
  target : ℝ

/-- Everything outside the model.  `heev`: `sqmatrix_eigensolve` of a `q × q` matrix in a flat array, which is overwritten; `junk`: what
is in a scratch array or in memory that was not written, by iteration. -/
structure Env (N p : ℕ) where
  inv : Sq p → Option (Sq p)
  sqrtm : Sq p → Sq p
  heev : ℕ → (ℕ → ℂ) → (ℕ → ℂ) × (ℕ → ℝ)
  junkY : ℕ → M N p
  junk : ℕ → ℕ → ℂ

/-- The state at the top of the loop: the basis `V`, its image `AV` (one array for each index below `nbasis`), `Y`, the matrix `VAV` with
its size, `eigenvals`, `prev_E`, `ibasis`, `iteration`. -/
structure St (N p : ℕ) where
  V : ℕ → M N p
  AV : ℕ → M N p
  Y : M N p
  vavP : ℕ
  vav : ℕ → ℂ
  vals : Fin p → ℝ
  prevE : ℝ
  ibasis : ℕ
  iter : ℕ

variable {N p : ℕ}

/-- `nbasis`, eigensolver_davidson.c:79. -/
def nbasis (a : Args N p) : ℕ := a.nWork / 2

/-! ## Square matrices in flat arrays -/

/-- `sqmatrix_resize(&A, q, 1)` from the size `op` to a size that is not smaller, sqmatrix.c:72-92 (at memory level:
`Verif.Mat.Block`); the new entries are unspecified. -/
def resize (op q : ℕ) (junk : ℕ → ℂ) (d : ℕ → ℂ) : ℕ → ℂ := fun n => if n / q < op ∧ n % q < op then d (n / q * op + n % q) else junk n

/-- `evectmatrixXtY_sub(U, off, X, Y, S)`, evectmatrix.c:212-232: `Xᴴ Y` into the block of the `q × q` matrix at the offset.  `none`: a
`CHECK` fails. -/
def xtySub (q off : ℕ) (X Y : M N p) (d : ℕ → ℂ) : Option (ℕ → ℂ) :=
  if p ≤ q ∧ off + (p - 1) * q + p ≤ q * q then
    some fun n => if h : off ≤ n ∧ (n - off) / q < p ∧ (n - off) % q < p then (Xᴴ * Y) ⟨(n - off) / q, h.2.1⟩ ⟨(n - off) % q, h.2.2⟩ else d n
  else none

/-- `sqmatrix_copy_upper2full`, sqmatrix.c:96-109. -/
noncomputable def upper2full (q : ℕ) (d : ℕ → ℂ) : ℕ → ℂ :=
  fun n => if n % q < n / q then (starRingEnd ℂ) (d (n % q * q + n / q)) else d n

/-- The block of a flat matrix at an offset. -/
def block (q off : ℕ) (d : ℕ → ℂ) : Sq p := fun r c => d (off + r * q + c)

/-- `evectmatrix_aXpbYS_sub(x, X, y, Y, S, off, 1)`, evectmatrix.c:106-121, for `S.p > 0`.  `none`: a `CHECK` fails. -/
def addBlock (x : ℂ) (X Y : M N p) (q off : ℕ) (d : ℕ → ℂ) : Option (M N p) :=
  if p ≤ q ∧ off + (p - 1) * q + p ≤ q * q then some (x • X + Y * (block q off d)ᴴ) else none

/-! ## The steps of an iteration -/

/-- The new blocks of `VAV`, eigensolver_davidson.c:119-122: for `i < n`. -/
def newBlocks (q ib : ℕ) (V : ℕ → M N p) (AVib : M N p) : ℕ → (ℕ → ℂ) → Option (ℕ → ℂ)
  | 0, d => some d
  | n + 1, d => (newBlocks q ib V AVib n d).bind fun d => xtySub q (p * (q * n + ib)) (V n) AVib d

open Classical in
/-- The start of the window around the target, eigensolver_davidson.c:129-137, from the index `i` with at most `f` steps. -/
noncomputable def windowFrom (target : ℝ) (p q : ℕ) (ev : ℕ → ℝ) : ℕ → ℕ → ℕ
  | 0, i => i
  | f + 1, i => if i + p < q ∧ |target - ev i| > |target - ev (i + p)| then windowFrom target p q ev f (i + 1) else i

open Classical in
/-- `itarget`, eigensolver_davidson.c:127-137. -/
noncomputable def itarget (target : ℝ) (p q : ℕ) (ev : ℕ → ℝ) : ℕ := if target = 0 then 0 else windowFrom target p q ev q 0

/-- `Σ_i W[i] S_iᴴ` with the blocks `S_i` of the rows from `it` on, eigensolver_davidson.c:145-149, 175-179: for `i < n`. -/
def combine (q it : ℕ) (S : ℕ → ℂ) (W : ℕ → M N p) : ℕ → M N p → Option (M N p)
  | 0, X => some X
  | n + 1, X => (combine q it S W n X).bind fun X => addBlock (if n = 0 then 0 else 1) X (W n) q (it * q + p * n) S

/-- `if (constraint) constraint(·, constraint_data)`. -/
def constrain (a : Args N p) (X : M N p) : M N p :=
  match a.C with
  | some C => C * X
  | none => X

/-- Orthogonalisation against the previous basis, eigensolver_davidson.c:210-213: for `i < n`. -/
def orthogonalize (V : ℕ → M N p) : ℕ → M N p → M N p
  | 0, W => W
  | n + 1, W =>
    let W := orthogonalize V n W
    W - V n * ((V n)ᴴ * W)

/-- Orthonormalisation, eigensolver_davidson.c:103-106, 216-219.  `none`: "singular YtY at start", "non-independent AV subspace". -/
def orthonormalize (e : Env N p) (W : M N p) : Option (M N p) := (e.inv (Wᴴ * W)).map fun U => W * (e.sqrtm U)ᴴ

/-- What the first half of an iteration finds: `AV`, the array `VAV`, the eigenvectors, the start of the window, the eigenvalues, `E`, and
`Y`. -/
structure Ritz (N p : ℕ) where
  AV : ℕ → M N p
  vav : ℕ → ℂ
  S : ℕ → ℂ
  it : ℕ
  vals : Fin p → ℝ
  Y : M N p

/-- `q`, eigensolver_davidson.c:114. -/
def size (p ib : ℕ) : ℕ := p * (ib + 1)

/-- The first half of an iteration, eigensolver_davidson.c:112-149: the best approximation in the space spanned by the basis. -/
noncomputable def ritz (a : Args N p) (e : Env N p) (s : St N p) : Option (Ritz N p) :=
  let AV := Function.update s.AV s.ibasis (a.A * s.V s.ibasis)
  let q := size p s.ibasis
  (newBlocks q s.ibasis s.V (AV s.ibasis) (s.ibasis + 1) (resize s.vavP q (e.junk s.iter) s.vav)).bind fun vav =>
    let h := e.heev q (upper2full q vav)
    let it := itarget a.target p q h.2
    (combine q it h.1 s.V (s.ibasis + 1) (e.junkY s.iter)).map fun Y => ⟨AV, vav, h.1, it, fun i => h.2 (it + i), Y⟩

/-- `E`, eigensolver_davidson.c:139-141. -/
noncomputable def energy (vals : Fin p → ℝ) : ℝ := ∑ i, vals i

/-- The convergence test, eigensolver_davidson.c:164-166. -/
def Converged (tol : ℝ) (iter : ℕ) (E prevE : ℝ) : Prop := 0 < iter ∧ |E - prevE| < tol * 0.5 * (|E| + |prevE| + 1 / 10 ^ 7)

/-- The residual `AY - Y eigenvals`, eigensolver_davidson.c:194-197. -/
def residual (AY Y : M N p) (vals : Fin p → ℝ) : M N p := AY - Y * diagonal (fun i => ((vals i : ℝ) : ℂ))

/-- `K(V[ibasis2], AV[ibasis2], Kdata, Y, eigenvals, I)` or a copy, eigensolver_davidson.c:199-203. -/
def applyK (a : Args N p) (X Y : M N p) (vals : Fin p → ℝ) : M N p :=
  match a.K with
  | some K => K X Y vals
  | none => X

/-- The second half of an iteration, eigensolver_davidson.c:169-224: the new direction, and the restart when the basis is full. -/
noncomputable def expand (a : Args N p) (e : Env N p) (s : St N p) (w : Ritz N p) : Option (St N p) :=
  let q := size p s.ibasis
  let ib2 := (s.ibasis + 1) % nbasis a
  (combine q w.it w.S w.AV (s.ibasis + 1) (s.V ib2)).bind fun AY =>
    let V := Function.update s.V ib2 AY
    let restart : Bool := ib2 = 0
    let AV := if restart then Function.update w.AV 0 (V 0) else w.AV
    let V := if restart then Function.update V 0 w.Y else V
    let vavP := if restart then p else q
    let vav := if restart then (fun n => if h : n / p < p ∧ n % p < p then ((V 0)ᴴ * AV 0) ⟨n / p, h.1⟩ ⟨n % p, h.2⟩ else w.vav n) else w.vav
    let ib2 := if restart then 1 else ib2
    let V := if restart then Function.update V ib2 (AV 0) else V
    let V := Function.update V ib2 (residual (V ib2) w.Y w.vals)
    let AV := Function.update AV ib2 (applyK a (V ib2) w.Y w.vals)
    let AV := Function.update AV ib2 (constrain a (AV ib2))
    let AV := Function.update AV ib2 (orthogonalize V ib2 (AV ib2))
    (orthonormalize e (AV ib2)).map fun X =>
      { V := Function.update V ib2 X, AV := AV, Y := w.Y, vavP := vavP, vav := vav, vals := w.vals, prevE := energy w.vals, ibasis := ib2,
        iter := s.iter + 1 }

/-! ## The loop -/

/-- `EIGENSOLVER_MAX_ITERATIONS`, eigensolver_davidson.c:50. -/
def maxIterations : ℕ := 100000

/-- How a run ends: the model's fuel is exhausted, a `CHECK` within an iteration fails, the limit of iterations is reached (a `CHECK`
fails after the loop), or normally, with the state and the eigenvalues of every iteration, the latest first. -/
inductive Result (N p : ℕ) where
  | outOfFuel
  | fail
  | limit
  | done (s : St N p) (log : List (Fin p → ℝ))

open Classical in
/-- The loop, eigensolver_davidson.c:108-230. -/
noncomputable def loop (a : Args N p) (e : Env N p) : ℕ → St N p → List (Fin p → ℝ) → Result N p
  | 0, _, _ => .outOfFuel
  | f + 1, s, log =>
    match ritz a e s with
    | none => .fail
    | some w =>
      if Converged a.tol s.iter (energy w.vals) s.prevE then .done { s with Y := w.Y, vals := w.vals } (w.vals :: log)
      else
        match expand a e s w with
        | none => .fail
        | some s' => if s'.iter < maxIterations then loop a e f s' (w.vals :: log) else .limit

/-- The state before the loop, eigensolver_davidson.c:84-106; `work` is what is in the work arrays. -/
noncomputable def initial (a : Args N p) (e : Env N p) (Y : M N p) (work : ℕ → M N p) : Option (St N p) :=
  let Y := constrain a Y
  (orthonormalize e Y).map fun V0 =>
    { V := Function.update work 0 V0, AV := fun i => work (nbasis a + i), Y := Y, vavP := 0, vav := e.junk 0, vals := fun _ => 0, prevE := 0,
      ibasis := 0, iter := 0 }

/-- A `p × p` matrix as a flat array, for `sqmatrix_eigensolve`. -/
def flat (S : Sq p) : ℕ → ℂ := fun n => if h : n / p < p ∧ n % p < p then S ⟨n / p, h.1⟩ ⟨n % p, h.2⟩ else 0

/-- After the loop, eigensolver_davidson.c:232-235 and `eigensolver_get_eigenvals_aux` (eigensolver_utils.c:32-48). -/
noncomputable def finish (a : Args N p) (e : Env N p) (Y : M N p) : Option (M N p × (Fin p → ℝ)) :=
  (e.inv (Yᴴ * Y)).map fun U =>
    let W := Y * (e.sqrtm U)ᴴ
    let h := e.heev p (flat (Wᴴ * (a.A * W)))
    (W * (block p 0 h.1)ᴴ, fun i => h.2 i)

/-- What a run returns: the block, its eigenvalues, the number of iterations, and the eigenvalues of every iteration. -/
structure Solution (N p : ℕ) where
  Y : M N p
  vals : Fin p → ℝ
  iterations : ℕ
  log : List (Fin p → ℝ)

/-- `eigensolver_davidson`, eigensolver_davidson.c:55-248.  `none`: the program aborts (or `fuel` is too small). -/
noncomputable def davidson (a : Args N p) (e : Env N p) (fuel : ℕ) (Y : M N p) (work : ℕ → M N p) : Option (Solution N p) :=
  if a.nWork < 4 then none
  else
    (initial a e Y work).bind fun s =>
      match loop a e fuel s [] with
      | .done s log => (finish a e s.Y).map fun v => ⟨v.1, v.2, s.iter, log.reverse⟩
      | _ => none

end Mpb.Davidson

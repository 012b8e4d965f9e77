import Verif.Dist.Planewave

/-!
# Whole computations on several processes

All processes run the same program.  Between the collective operations a process decides from its own copies of the numbers it has
computed (eigenvalues, convergence tests, line minimisations) what to do next.  MPI requires that all processes then call the same
operation.
-/

namespace Mpb.Dist

open Mpb.Maxwell Mpb.Maxwell.Spec Mpb.Parity Mpb.Dist.Spec

variable {P : ℕ}

/-- The operations from which `eigensolver` (eigensolver.c) and the functions of mpb.c called with it are built.  Arrays of bands have
numbers; so have the small numbers (elements of small matrices, traces, loop variables). -/
inductive Step
  /-- `evectoperator`: `maxwell_operator` from array `i` to array `o` -/
  | operator (i o : ℕ)
  /-- `maxwell_muinv_operator` from array `i` to array `o` -/
  | muinv (i o : ℕ)
  /-- `maxwell_ucross_op` from array `i` to array `o` -/
  | ucross (u : V3 ℝ) (i o : ℕ)
  /-- `evectmatrix_aXpbYS_sub`: `x := a x + b y S` -/
  | combine (a b : ℝ) (S : ℕ → ℕ → ℂ) (y x : ℕ)
  /-- `evectmatrix_XtY`: the numbers from `dst` on become the elements of `adjoint(x) * y` -/
  | product (x y dst : ℕ)
  /-- `evectmatrix_traceXtY` -/
  | trace (x y dst : ℕ)
  /-- `deflation_constraint` with the first `q` bands of `y` and of `by'` -/
  | deflate (q y by' x : ℕ)
  /-- `maxwell_parity_constraint` -/
  | parity (mask : BitVec 32) (x : ℕ)
  /-- `maxwell_zero_k_constraint` -/
  | zeroK (x : ℕ)
  /-- `maxwell_zero_k_set_const_bands` -/
  | constBands (mask : BitVec 32) (x : ℕ)
  /-- `maxwell_zparity` and `maxwell_yparity` of all bands -/
  | parities (x dst : ℕ)
  /-- a computation with the numbers of the process -/
  | scalar (f : (ℕ → ℂ) → ℕ → ℂ)
  /-- the end of the program -/
  | halt

/-- One process. -/
structure State where
  arr : ℕ → ℕ → ℂ
  num : ℕ → ℂ

/-- The sizes of the problem. -/
structure Dims where
  nx : ℕ
  ny : ℕ
  nz : ℕ
  p : ℕ

/-- The numbers from `dst` on become the elements of a matrix of `p` columns. -/
noncomputable def store (p dst : ℕ) (M : ℕ → ℕ → ℂ) (num : ℕ → ℂ) : ℕ → ℂ := fun t =>
  if dst ≤ t ∧ t < dst + p * p then M ((t - dst) / p) ((t - dst) % p) else num t

/-- The numbers from `dst` on become the parities. -/
noncomputable def storeParities (p dst : ℕ) (z y : ℕ → ℝ) (num : ℕ → ℂ) : ℕ → ℂ := fun t =>
  if dst ≤ t ∧ t < dst + p then z (t - dst) else if dst + p ≤ t ∧ t < dst + p + p then y (t - dst - p) else num t

/-- What a step does on one process that holds everything. -/
noncomputable def serialStep (e : Dims) (D : Maxwell.OpData) (bufs : ℕ → ℕ → ℂ) (st : Step) (S : State) : Option State :=
  match st with
  | .operator i o => (Maxwell.maxwellOperator D e.p bufs (S.arr i) (S.arr o)).map fun X => ⟨Function.update S.arr o X, S.num⟩
  | .muinv i o => (Maxwell.muinvOperator D e.p bufs (S.arr i) (S.arr o)).map fun X => ⟨Function.update S.arr o X, S.num⟩
  | .ucross u i o => (Maxwell.ucrossOperator D u e.p bufs (S.arr i) (S.arr o)).map fun X => ⟨Function.update S.arr o X, S.num⟩
  | .combine a b M y x => some ⟨Function.update S.arr x fun i =>
      a * S.arr x i + b * ∑ c ∈ Finset.range e.p, S.arr y (i / e.p * e.p + c) * M c (i % e.p), S.num⟩
  | .product x y dst => some ⟨S.arr, store e.p dst (fun a b =>
      ∑ i ∈ Finset.range (e.nx * (e.ny * e.nz) * 2), starRingEnd ℂ (S.arr x (i * e.p + a)) * S.arr y (i * e.p + b)) S.num⟩
  | .trace x y dst => some ⟨S.arr, Function.update S.num dst
      (∑ a ∈ Finset.range e.p, ∑ i ∈ Finset.range (e.nx * (e.ny * e.nz) * 2), starRingEnd ℂ (S.arr x (i * e.p + a)) * S.arr y (i * e.p + a))⟩
  | .deflate q y by' x => some ⟨Function.update S.arr x fun i =>
      S.arr x i - ∑ c ∈ Finset.range (min q e.p), S.arr y (i / e.p * e.p + c) *
        ∑ j ∈ Finset.range (e.nx * (e.ny * e.nz) * 2), starRingEnd ℂ (S.arr by' (j * e.p + c)) * S.arr x (j * e.p + i % e.p), S.num⟩
  | .parity mask x => some ⟨Function.update S.arr x (parityConstraint ⟨e.nx, e.ny, e.nz⟩ mask e.p (S.arr x)), S.num⟩
  | .zeroK x => some ⟨Function.update S.arr x (zeroKConstraint e.p 0 (S.arr x)), S.num⟩
  | .constBands mask x => some ⟨Function.update S.arr x (setConstBands mask (e.nx * (e.ny * e.nz) * 2) e.p 0 (S.arr x)), S.num⟩
  | .parities x dst => some ⟨S.arr, storeParities e.p dst (fun b => Parity.zparity ⟨e.nx, e.ny, e.nz⟩ e.p (S.arr x) b)
      (fun b => Parity.yparity ⟨e.nx, e.ny, e.nz⟩ e.p (S.arr x) b) S.num⟩
  | .scalar f => some ⟨S.arr, f S.num⟩
  | .halt => some S

/-- Replace an array on every process. -/
def putArr (T : Fin P → State) (o : ℕ) (X : Fin P → ℕ → ℂ) : Fin P → State := fun r => ⟨Function.update (T r).arr o (X r), (T r).num⟩

/-- What the processes do together when all of them perform the step `st`. -/
noncomputable def parallelStep (d : OpData P) (p : ℕ) (bufs : ℕ → Fin P → ℕ → ℂ) (st : Step) (T : Fin P → State) : Option (Fin P → State) :=
  let rows := fun r => d.lx.size r * (d.ny * d.nz) * 2
  match st with
  | .operator i o => (maxwellOperator d p bufs (fun r => (T r).arr i) (fun r => (T r).arr o)).map (putArr T o)
  | .muinv i o => (muinvOperator d p bufs (fun r => (T r).arr i) (fun r => (T r).arr o)).map (putArr T o)
  | .ucross u i o => (ucrossOperator d u p bufs (fun r => (T r).arr i) (fun r => (T r).arr o)).map (putArr T o)
  | .combine a b M y x => some (putArr T x (combine rows p a b M (fun r => (T r).arr y) (fun r => (T r).arr x)))
  | .product x y dst => some fun r => ⟨(T r).arr, store p dst (xty rows p (fun r => (T r).arr x) (fun r => (T r).arr y)) (T r).num⟩
  | .trace x y dst => some fun r =>
      ⟨(T r).arr, Function.update (T r).num dst (traceXtY rows p (fun r => (T r).arr x) (fun r => (T r).arr y))⟩
  | .deflate q y by' x => some (putArr T x (deflate rows (min q p) p p (fun r => (T r).arr y) (fun r => (T r).arr by') (fun r => (T r).arr x)))
  | .parity mask x => some (putArr T x fun r => parityConstraint ⟨d.lx.size r, d.ny, d.nz⟩ mask p ((T r).arr x))
  | .zeroK x => some (putArr T x fun r => zeroKConstraint p (d.lx.start r * (d.ny * d.nz)) ((T r).arr x))
  | .constBands mask x => some (putArr T x fun r => setConstBands mask (rows r) p (d.lx.start r * (d.ny * d.nz)) ((T r).arr x))
  | .parities x dst => some fun r => ⟨(T r).arr, storeParities p dst (zparity d.lx d.ny d.nz p fun r => (T r).arr x)
      (yparity d.lx d.ny d.nz p fun r => (T r).arr x) (T r).num⟩
  | .scalar f => some fun r => ⟨(T r).arr, f (T r).num⟩
  | .halt => some T

/-- `n` steps of a program on one process.  `next` decides from the numbers what to do; `bufs` are the contents of the scratch arrays. -/
noncomputable def serialRun (e : Dims) (D : Maxwell.OpData) (next : (ℕ → ℂ) → Step) (bufs : ℕ → ℕ → ℕ → ℂ) : ℕ → State → Option State
  | 0, S => some S
  | n + 1, S => (serialStep e D (bufs n) (next S.num) S).bind (serialRun e D next bufs n)

open Classical in
/-- `n` steps of the same program on all processes.  Each process decides from its own numbers; `none` if they decide differently, for
then they wait for each other for ever. -/
noncomputable def parallelRun (d : OpData P) (p : ℕ) (next : (ℕ → ℂ) → Step) (bufs : ℕ → ℕ → Fin P → ℕ → ℂ) :
    ℕ → (Fin P → State) → Option (Fin P → State)
  | 0, T => some T
  | n + 1, T =>
    if h : ∃ st, ∀ r, next (T r).num = st then (parallelStep d p (bufs n) h.choose T).bind (parallelRun d p next bufs n) else none

/-- The processes together are in the state of the one process: each array is distributed, and each process has all the numbers. -/
structure Together (l : Layout P) (w : ℕ) (S : State) (T : Fin P → State) : Prop where
  arr : ∀ x, Pieces l w (S.arr x) fun r => (T r).arr x
  num : ∀ r, (T r).num = S.num

section
variable {d : OpData P} {D : Maxwell.OpData} {p : ℕ} {S : State} {T : Fin P → State} {w : ℕ}

theorem together_put {l : Layout P} (h : Together l w S T) {o : ℕ} {X : ℕ → ℂ} {Xs : Fin P → ℕ → ℂ} (hX : Pieces l w X Xs) :
    Together l w ⟨Function.update S.arr o X, S.num⟩ (putArr T o Xs) := by
  refine ⟨fun x => ?_, fun r => h.num r⟩
  by_cases e : x = o
  · subst e
    simpa [putArr] using hX
  · simpa [putArr, Function.update_of_ne e] using h.arr x

/-- One step keeps the processes together. -/
theorem step_together (h : SameProblem d D) (hn : 0 < d.nfb) (st : Step) (bufs : ℕ → Fin P → ℕ → ℂ) (sbufs : ℕ → ℕ → ℂ)
    (hT : Together d.lx (d.ny * d.nz * (2 * p)) S T) :
    ∃ S' T', serialStep ⟨d.nx, d.ny, d.nz, p⟩ D sbufs st S = some S' ∧ parallelStep d p bufs st T = some T' ∧
      Together d.lx (d.ny * d.nz * (2 * p)) S' T' := by
  have hy := h.rank.1
  have hz := h.rank.2.1
  have hc := h.rows
  cases st with
  | operator i o =>
    obtain ⟨R, Rs, h1, h2, h3, -⟩ := C94_operator d D h hn p (S.arr i) (fun r => (T r).arr i) (hT.arr i) bufs sbufs (fun r => (T r).arr o) (S.arr o)
    refine ⟨_, _, ?_, ?_, together_put hT (o := o) h3⟩
    · simp only [serialStep, h1, Option.map_some]
    · simp only [parallelStep, h2, Option.map_some]
  | muinv i o =>
    obtain ⟨R, Rs, h1, h2, h3, -⟩ := C94_muinv d D h hn p (S.arr i) (fun r => (T r).arr i) (hT.arr i) bufs sbufs (fun r => (T r).arr o) (S.arr o)
    refine ⟨_, _, ?_, ?_, together_put hT (o := o) h3⟩
    · simp only [serialStep, h1, Option.map_some]
    · simp only [parallelStep, h2, Option.map_some]
  | ucross u i o =>
    obtain ⟨R, Rs, h1, h2, h3, -⟩ := C94_ucross d D h hn u p (S.arr i) (fun r => (T r).arr i) (hT.arr i) bufs sbufs (fun r => (T r).arr o) (S.arr o)
    refine ⟨_, _, ?_, ?_, together_put hT (o := o) h3⟩
    · simp only [serialStep, h1, Option.map_some]
    · simp only [parallelStep, h2, Option.map_some]
  | combine a b M y x =>
    exact ⟨_, _, rfl, rfl, together_put hT (C94_combine d.lx (d.ny * d.nz) p a b M _ _ _ _ (hT.arr x) (hT.arr y))⟩
  | product x y dst =>
    refine ⟨_, _, rfl, rfl, hT.arr, fun r => ?_⟩
    simp only [hT.num r]
    funext t
    unfold store
    by_cases ht : dst ≤ t ∧ t < dst + p * p
    · rw [if_pos ht, if_pos ht]
      have hp : 0 < p := Nat.pos_of_ne_zero fun e => by subst e; omega
      exact (C94_products d.lx d.nx (d.ny * d.nz) p hc _ _ _ _ (hT.arr x) (hT.arr y)).1 _ (Nat.div_lt_of_lt_mul (by omega)) _ (Nat.mod_lt _ hp)
    · rw [if_neg ht, if_neg ht]
  | trace x y dst =>
    refine ⟨_, _, rfl, rfl, hT.arr, fun r => ?_⟩
    simp only [hT.num r]
    rw [(C94_products d.lx d.nx (d.ny * d.nz) p hc _ _ _ _ (hT.arr x) (hT.arr y)).2.2]
  | deflate q y by' x =>
    exact ⟨_, _, rfl, rfl, together_put hT (C94_deflation d.lx d.nx (d.ny * d.nz) (min q p) p p (by omega) hc _ _ _ _ _ _ (hT.arr y) (hT.arr by') (hT.arr x))⟩
  | parity mask x =>
    exact ⟨_, _, rfl, rfl, together_put hT (C94_parity_constraint d.lx d.nx d.ny d.nz hy hz hc mask p _ _ (hT.arr x))⟩
  | zeroK x =>
    exact ⟨_, _, rfl, rfl, together_put hT (C94_zero_k d.lx d.nx (d.ny * d.nz) (Nat.mul_pos hy hz) hc 0 p _ _ (hT.arr x)).2⟩
  | constBands mask x =>
    exact ⟨_, _, rfl, rfl, together_put hT (C94_zero_k d.lx d.nx (d.ny * d.nz) (Nat.mul_pos hy hz) hc mask p _ _ (hT.arr x)).1⟩
  | parities x dst =>
    refine ⟨_, _, rfl, rfl, hT.arr, fun r => ?_⟩
    simp only [hT.num r]
    funext t
    unfold storeParities
    have hp := fun b hb => C94_parities d.lx d.nx d.ny d.nz hy hz hc p _ _ (hT.arr x) b hb
    by_cases h1 : dst ≤ t ∧ t < dst + p
    · rw [if_pos h1, if_pos h1, (hp (t - dst) (by omega)).1]
    · rw [if_neg h1, if_neg h1]
      by_cases h2 : dst + p ≤ t ∧ t < dst + p + p
      · rw [if_pos h2, if_pos h2, (hp (t - dst - p) (by omega)).2]
      · rw [if_neg h2, if_neg h2]
  | scalar f =>
    refine ⟨_, _, rfl, rfl, hT.arr, fun r => ?_⟩
    simp only [hT.num r]
  | halt => exact ⟨_, _, rfl, rfl, hT⟩

end

/-- C94 (whole computations).  For every program built from these operations that chooses each step from the numbers computed so far, for
every number of steps, every number of processes and every distribution of the grid: the processes always choose the same step, and what
they compute is what one process computes: each array is distributed and each process has all the numbers. -/
theorem C94_program (d : OpData P) (D : Maxwell.OpData) (h : SameProblem d D) (hn : 0 < d.nfb) (hx : 0 < d.nx) (p : ℕ) (next : (ℕ → ℂ) → Step)
    (bufs : ℕ → ℕ → Fin P → ℕ → ℂ) (sbufs : ℕ → ℕ → ℕ → ℂ) (n : ℕ) (S : State) (T : Fin P → State)
    (hT : Together d.lx (d.ny * d.nz * (2 * p)) S T) :
    ∃ S' T', serialRun ⟨d.nx, d.ny, d.nz, p⟩ D next sbufs n S = some S' ∧ parallelRun d p next bufs n T = some T' ∧
      Together d.lx (d.ny * d.nz * (2 * p)) S' T' := by
  induction n generalizing S T with
  | zero => exact ⟨S, T, rfl, rfl, hT⟩
  | succ n ih =>
    obtain ⟨r0, -, -⟩ := h.rows.owner 0 hx
    have hex : ∃ st, ∀ r, next (T r).num = st := ⟨next S.num, fun r => by rw [hT.num r]⟩
    have hst : hex.choose = next S.num := by rw [← hex.choose_spec r0, hT.num r0]
    obtain ⟨S1, T1, h1, h2, h3⟩ := step_together h hn (next S.num) (bufs n) (sbufs n) hT
    obtain ⟨S2, T2, h4, h5, h6⟩ := ih S1 T1 h3
    refine ⟨S2, T2, ?_, ?_, h6⟩
    · rw [serialRun, h1, Option.bind_some, h4]
    · rw [parallelRun, dif_pos hex, hst, h2, Option.bind_some, h5]

/-! ## The hypotheses are met -/

/-- A grid of 4 × 2 × 3 points on three processes: rows 0 and 1, rows 2 and 3, and a process with no rows. -/
noncomputable def exData : OpData 3 where
  nx := 4
  ny := 2
  nz := 3
  lx := ⟨![0, 2, 4], ![2, 2, 0]⟩
  ly := ⟨![0, 1, 2], ![1, 1, 0]⟩
  nfb := 2
  kpg := fun r i => kData ⟨((![0, 2, 4] r * 6 + i : ℕ) : ℝ), 1, 0⟩
  epsInv := fun r j => ⟨(point ⟨![0, 1, 2], ![1, 1, 0]⟩ 4 2 3 r j : ℝ) + 1, 1, 1, 0, 0, 0⟩
  muInv := none
  Wf := fun i j => Complex.exp (-2 * Real.pi * Complex.I * (i * j : ℕ) / 24)
  Wb := fun i j => Complex.exp (2 * Real.pi * Complex.I * (i * j : ℕ) / 24)

/-- The same problem on one process. -/
noncomputable def exSerial : Maxwell.OpData where
  od := 8
  ld := 3
  nfb := 2
  kpg := fun i => kData ⟨(i : ℝ), 1, 0⟩
  epsInv := fun i => ⟨(i : ℝ) + 1, 1, 1, 0, 0, 0⟩
  muInv := none
  Wf := exData.Wf
  Wb := exData.Wb

theorem ex_rows : Covers exData.lx 4 := by
  refine ⟨fun r => by fin_cases r <;> simp [exData], fun x hx => ?_⟩
  interval_cases x
  · exact ⟨0, by simp [exData], fun r hr => by fin_cases r <;> simp_all [exData]⟩
  · exact ⟨0, by simp [exData], fun r hr => by fin_cases r <;> simp_all [exData]⟩
  · exact ⟨1, by simp [exData], fun r hr => by fin_cases r <;> simp_all [exData]⟩
  · exact ⟨1, by simp [exData], fun r hr => by fin_cases r <;> simp_all [exData]⟩

theorem ex_columns : Covers exData.ly 2 := by
  refine ⟨fun r => by fin_cases r <;> simp [exData], fun x hx => ?_⟩
  interval_cases x
  · exact ⟨0, by simp [exData], fun r hr => by fin_cases r <;> simp_all [exData]⟩
  · exact ⟨1, by simp [exData], fun r hr => by fin_cases r <;> simp_all [exData]⟩

theorem ex_same : SameProblem exData exSerial where
  points := rfl
  nfb := rfl
  forward := rfl
  backward := rfl
  rows := ex_rows
  columns := ex_columns
  rank := by simp [exData]
  vectors := fun r a _ => rfl
  eps := by
    intro r y hy x hx z hz
    show (⟨((point exData.ly 4 2 3 r ((y * 4 + x) * 3 + z) : ℕ) : ℝ) + 1, 1, 1, 0, 0, 0⟩ : HMat) =
      ⟨(((x * 2 + (exData.ly.start r + y)) * 3 + z : ℕ) : ℝ) + 1, 1, 1, 0, 0, 0⟩
    have := point_eq exData.ly (ny := 2) r (y := y) (show x < 4 from hx) (show z < 3 from hz)
    rw [this]
  mu := trivial

/-- Some bands. -/
noncomputable def exState : State := ⟨fun x i => (x + i : ℕ), fun _ => 0⟩

/-- The same bands on the three processes. -/
noncomputable def exStates : Fin 3 → State := fun r => ⟨fun x a => exState.arr x (exData.lx.start r * (exData.ny * exData.nz * (2 * 2)) + a), fun _ => 0⟩

theorem ex_together : Together exData.lx (exData.ny * exData.nz * (2 * 2)) exState exStates :=
  ⟨fun x r a _ => by unfold exStates; rfl, fun _ => by unfold exStates exState; rfl⟩

/-- Two bands; apply the operator until the trace of the product vanishes. -/
noncomputable def exNext (num : ℕ → ℂ) : Step := by
  classical
  exact if num 0 = 0 then .trace 0 1 0 else if num 1 = 0 then .operator 0 1 else .halt

example (n : ℕ) : ∃ S' T', serialRun ⟨exData.nx, exData.ny, exData.nz, 2⟩ exSerial exNext (fun _ _ _ => 0) n exState = some S' ∧
    parallelRun exData 2 exNext (fun _ _ _ _ => 5) n exStates = some T' ∧ Together exData.lx (exData.ny * exData.nz * (2 * 2)) S' T' :=
  C94_program exData exSerial ex_same (by simp [exData]) (by simp [exData]) 2 exNext _ _ n exState exStates ex_together

/-- Two rows on each of two processes. -/
def exTwo : Layout 2 := ⟨![0, 2], ![2, 2]⟩

theorem exTwo_covers : Covers exTwo 4 := by
  refine ⟨fun r => by fin_cases r <;> simp [exTwo], fun x hx => ?_⟩
  interval_cases x
  · exact ⟨0, by simp [exTwo], fun r hr => by fin_cases r <;> simp_all [exTwo]⟩
  · exact ⟨0, by simp [exTwo], fun r hr => by fin_cases r <;> simp_all [exTwo]⟩
  · exact ⟨1, by simp [exTwo], fun r hr => by fin_cases r <;> simp_all [exTwo]⟩
  · exact ⟨1, by simp [exTwo], fun r hr => by fin_cases r <;> simp_all [exTwo]⟩

/-- Two processes with two rows each find the dominant plane wave. -/
example (kpg : ℕ → KData) (H : ℕ → ℂ) : dominantPlanewave (fun r => r.val) (fun r => exTwo.size r * 1) (fun r i => kpg (exTwo.start r * 1 + i)) 1
    (fun r a => H (exTwo.start r * (1 * (2 * 1)) + a)) 1 = Maxwell.dominantPlanewave (4 * 1) kpg 1 H 1 :=
  C94_dominant_partial exTwo 4 1 (by norm_num) (by norm_num) exTwo_covers (fun r => by fin_cases r <;> simp [exTwo])
    (by intro a b hab; fin_cases a <;> fin_cases b <;> simp_all [exTwo]) 1 kpg _ (fun r a _ => rfl) H _ (fun r a _ => rfl) 1

/-- Four processes divided into two groups: the second group has the ranks 2 and 3. -/
example : dominantPlanewave (P := 2) (fun r => 2 + r.val) (fun _ => 2) (fun _ _ => kData ⟨1, 0, 0⟩) 1 (fun _ _ => 1) 1 = none :=
  C94_dominant_groups_refuted (sz := 4) (n := 2) (g := 1) (by norm_num) (by norm_num) (by norm_num) (by decide) (by decide) _
    (by decide) _ _ _ _ _

/-- The three processes of `exData`: the last has no plane wave. -/
example (Hs : Fin 3 → ℕ → ℂ) : dominantPlanewave (fun r => r.val) (fun r => exData.lx.size r * 6) exData.kpg 2 Hs 1 = none :=
  C94_dominant_idle_refuted _ _ 2 (by simp [exData]) _ _ _ _

/-- The plane wave (1, 0, 1) in the second band, distributed over the three processes of `exData`. -/
example (H : ℕ → ℂ) : SameOutcome exData.lx (2 * 3 * (2 * 2)) (Maxwell.setPlanewave 4 2 3 exSerial.kpg 2 H 2 ⟨1, 0, 1⟩ 1 0 ⟨0, 0, 1⟩)
      (setPlanewave exData.lx 4 2 3 exData.kpg 2 (fun r a => H (exData.lx.start r * (2 * 3 * (2 * 2)) + a)) 2 ⟨1, 0, 1⟩ 1 0 ⟨0, 0, 1⟩) :=
  C94_planewave exData.lx 4 2 3 ex_rows (by norm_num) exSerial.kpg exData.kpg (fun r a _ => rfl) 2 H _ (fun r a _ => rfl) 2 (by norm_num) _ _ _ _

end Mpb.Dist

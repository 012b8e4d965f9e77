import Verif.Eig.Refute
import Mathlib.Analysis.SpecialFunctions.Trigonometric.Bounds

/-!
# Concrete runs

One band in a space of two dimensions: complete runs of the model, with the exact and with the approximate line minimisation.
-/

namespace Mpb.Eig

open Matrix Mpb.Solver

open scoped ComplexOrder

/-- A real 1×1 matrix. -/
def sc (x : ℝ) : Sq 1 := Matrix.of fun _ _ => (x : ℂ)

/-- A real block of one vector of two components. -/
def col (x y : ℝ) : M 2 1 := Matrix.of ![![(x : ℂ)], ![(y : ℂ)]]

/-- A real symmetric operator. -/
def sym (a c d : ℝ) : Matrix (Fin 2) (Fin 2) ℂ := Matrix.of ![![(a : ℂ), c], ![(c : ℂ), d]]

theorem sq1_ext {S T : Sq 1} (h : S 0 0 = T 0 0) : S = T := by
  ext i j
  rw [Subsingleton.elim i 0, Subsingleton.elim j 0]
  exact h

theorem sq1_herm {S : Sq 1} (h : S.IsHermitian) : S = sc (S 0 0).re := by
  refine sq1_ext ?_
  have := congrFun (congrFun h 0) 0
  simp only [conjTranspose_apply] at this
  exact ((Complex.conj_eq_iff_re).1 this).symm

@[simp] theorem sc_mul (x y : ℝ) : sc x * sc y = sc (x * y) := sq1_ext (by simp [sc, Matrix.mul_apply])
@[simp] theorem sc_conj (x : ℝ) : (sc x)ᴴ = sc x := sq1_ext (by simp [sc])
@[simp] theorem sc_trace (x : ℝ) : (sc x).trace.re = x := by simp [sc, Matrix.trace]
@[simp] theorem sc_add (x y : ℝ) : sc x + sc y = sc (x + y) := sq1_ext (by simp [sc])
@[simp] theorem sc_smul (k x : ℝ) : ((k : ℝ) : ℂ) • sc x = sc (k * x) := sq1_ext (by simp [sc])
theorem sc_one : sc 1 = 1 := sq1_ext (by simp [sc])
@[simp] theorem sc_apply (x : ℝ) : sc x 0 0 = (x : ℂ) := rfl

theorem sc_herm (x : ℝ) : (sc x).IsHermitian := sc_conj x

theorem sc_inv {x : ℝ} (h : x ≠ 0) : (sc x)⁻¹ = sc (1 / x) := by
  apply Matrix.inv_eq_right_inv
  rw [sc_mul, mul_one_div_cancel h, sc_one]

theorem sc_posDef {x : ℝ} : (sc x).PosDef ↔ 0 < x := by
  constructor
  · intro h
    have := h.diag_pos (i := 0)
    simpa [sc] using (Complex.lt_def.1 this).1
  · intro h
    have h1 : sc x = ((x : ℝ) : ℂ) • (1 : Sq 1) := by rw [← sc_one, sc_smul, mul_one]
    rw [h1]
    refine Matrix.PosDef.one.smul ?_
    rw [Complex.lt_def]
    simpa using h

@[simp] theorem col_over (x y u v : ℝ) : (col x y)ᴴ * col u v = sc (x * u + y * v) := sq1_ext (by simp [col, sc, Matrix.mul_apply])
@[simp] theorem col_smul (k x y : ℝ) : ((k : ℝ) : ℂ) • col x y = col (k * x) (k * y) := by
  ext i j; fin_cases i <;> simp [col, Subsingleton.elim j 0]
@[simp] theorem col_add (x y u v : ℝ) : col x y + col u v = col (x + u) (y + v) := by
  ext i j; fin_cases i <;> simp [col, Subsingleton.elim j 0]
@[simp] theorem col_sub (x y u v : ℝ) : col x y - col u v = col (x - u) (y - v) := by
  ext i j; fin_cases i <;> simp [col, Subsingleton.elim j 0]
@[simp] theorem col_sc (x y k : ℝ) : col x y * sc k = col (x * k) (y * k) := by
  ext i j; fin_cases i <;> simp [col, sc, Matrix.mul_apply]
@[simp] theorem sym_col (a c d x y : ℝ) : sym a c d * col x y = col (a * x + c * y) (c * x + d * y) := by
  ext i j; fin_cases i <;> simp [col, sym, Matrix.mul_apply, Fin.sum_univ_two]

theorem col_ext {x y u v : ℝ} (h1 : x = u) (h2 : y = v) : col x y = col u v := by rw [h1, h2]

theorem sym_herm (a c d : ℝ) : (sym a c d).IsHermitian := by
  ext i j
  fin_cases i <;> fin_cases j <;> simp [sym]

theorem col_injective {x y : ℝ} (h : 0 < x * x + y * y) : Function.Injective (col x y).mulVec :=
  posDef_injective (B := 1) (by rw [Matrix.mul_one, col_over]; exact sc_posDef.2 h)

open Classical in
/-- LAPACK for 1×1 matrices; nothing random, nothing spoilt, and timings that never favour the approximate line minimisation. -/
noncomputable def env1 : Env 2 1 where
  inv := fun S => if 0 < (S 0 0).re then some (sc (1 / (S 0 0).re)) else none
  invGen := fun _ => none
  sqrtm := fun S => sc (Real.sqrt (S 0 0).re)
  heev := fun S => (1, fun _ => (S 0 0).re)
  rnd := fun _ => 0
  junk := fun _ _ => 0
  tExact := fun _ => 1
  tApprox := fun _ => 1
  evals := 1
  work := ⟨fun _ => 0, fun _ => 0⟩

theorem env1_ok : EnvOK env1 := by
  refine ⟨fun S hS => ?_, fun S hS => ?_, fun S hS => ?_⟩
  · rw [sq1_herm hS, sc_posDef]
    generalize (S 0 0).re = x
    refine ⟨fun h => ?_, fun h => ?_⟩
    · simp only [env1, sc_apply, Complex.ofReal_re]
      rw [sc_inv h.ne']
      exact if_pos h
    · simp only [env1, sc_apply, Complex.ofReal_re]
      exact if_neg h
  · obtain ⟨x, rfl⟩ : ∃ x, S = sc x := ⟨_, sq1_herm hS.isHermitian⟩
    rw [sc_posDef] at hS
    simp only [env1, sc_apply, Complex.ofReal_re]
    exact ⟨sc_herm _, by rw [sc_mul, Real.mul_self_sqrt hS.le]⟩
  · rw [sq1_herm hS]
    generalize (S 0 0).re = x
    simp only [env1, sc_apply, Complex.ofReal_re]
    refine ⟨by simp, by simp, ?_, fun _ _ _ => le_refl _⟩
    refine sq1_ext ?_
    simp [sc, Matrix.diagonal]

theorem env1_inv {x : ℝ} (h : 0 < x) : env1.inv (sc x) = some (sc (1 / x)) := by
  simp only [env1, sc_apply, Complex.ofReal_re]
  exact if_pos h

/-- The problem: two work arrays (steepest descent), tolerance 1, no second operator, preconditioner or constraint. -/
noncomputable def args (a c d : ℝ) (fl : Flags) : Args 2 1 := ⟨sym a c d, none, none, none, 2, 1, fl, false⟩

theorem args_good (a c d : ℝ) (fl : Flags) : Good (args a c d fl) :=
  ⟨one_pos, sym_herm a c d, fun B h => (by cases h), fun C h => (by cases h), fun _ C B h => (by cases h), zero_le_one⟩

theorem args_Bm (a c d : ℝ) (fl : Flags) : Bm (args a c d fl) = 1 := rfl

section steps

variable {a c d : ℝ} {fl : Flags}

theorem args_slots : sBY (args a c d fl) = 0 ∧ cg (args a c d fl) = false ∧ sD (args a c d fl) = 2 ∧ sBD (args a c d fl) = 2 ∧
    pr (args a c d fl) = false ∧ sPrev (args a c d fl) = 1 ∧ nB (args a c d fl) = 0 := by
  have h1 : nB (args a c d fl) = 0 := rfl
  have h2 : cg (args a c d fl) = false := by simp [cg, args, nB]
  have h3 : sD (args a c d fl) = 2 := by unfold sD; rw [h2]; rfl
  have h4 : pr (args a c d fl) = false := by simp [pr, args, nB]
  refine ⟨rfl, h2, h3, ?_, h4, ?_, h1⟩
  · unfold sBD; rw [h3]; rfl
  · unfold sPrev; rw [h4]; rfl

theorem rayleigh_col (x y : ℝ) (h : 0 < x * x + y * y) :
    Spec.rayleigh (sym a c d) 1 (col x y) = (x * (a * x + c * y) + y * (c * x + d * y)) / (x * x + y * y) := by
  unfold Spec.rayleigh
  rw [Matrix.mul_assoc (col x y)ᴴ (sym a c d), sym_col, Matrix.mul_one, col_over, col_over, sc_inv h.ne', sc_mul, sc_trace]
  ring

theorem prepare_col (s : St 2 1) (x y : ℝ) (h0 : s.r 0 = col x y) (h : x * x + y * y = 1) :
    prepare (args a c d fl) env1 s = .ok (put s.r 0 (col x y)) (sc 1) (sc 1) s.prevTrGX := by
  obtain ⟨e1, e2, e3, e4, e5, e6, e7⟩ := args_slots (a := a) (c := c) (d := d) (fl := fl)
  have hm : measure (args a c d fl) env1 s.iter 0 s.r = (put s.r 0 (col x y), sc 1) := by
    unfold measure
    have ho : opB (args a c d fl) env1 s.iter 0 0 (sBY (args a c d fl)) 1 s.r = s.r := rfl
    have hB : (args a c d fl).B.isSome = false := rfl
    rw [e1] at ho
    simp only [e1, ho, hB, h0, col_over, sc_trace, h, Bool.false_eq_true, if_false]
    norm_num
  unfold prepare
  simp only [hm, env1_inv one_pos]
  rw [if_neg]
  · norm_num
  · rintro ⟨-, h⟩
    norm_num at h

theorem trace_col (it : ℕ) (r : ℕ → M 2 1) (x y : ℝ) (h0 : r 0 = col x y) :
    evalTrace (args a c d fl) env1 it (sc 1) r =
      (put (put r 2 (col (a * x + c * y) (c * x + d * y))) 1 (col (a * x + c * y) (c * x + d * y)),
        sc (x * (a * x + c * y) + y * (c * x + d * y))) := by
  have hsp : ∀ r', spoil (args a c d fl) env1 it 2 1 r' = r' := fun r' => rfl
  have hA : (args a c d fl).A = sym a c d := rfl
  unfold evalTrace opA
  simp only [hsp, put_same, put_ne _ _ (show (0 : ℕ) ≠ 1 by decide), put_ne _ _ (show (0 : ℕ) ≠ 2 by decide), hA, h0, sym_col, sc_conj, col_sc, mul_one,
    col_over]

/-- The direction of the first iteration is the gradient. -/
theorem direction_col (s : St 2 1) (hist : ℕ → ℝ) (tr : ℝ) (r : ℕ → M 2 1) (x y u v E : ℝ) (hf : fl.project = false) (ho : fl.orthoPre = false)
    (h0 : r 0 = col x y) (h1 : r 1 = col u v) :
    ∃ trGX hist', direction (args a c d fl) env1 s hist tr (sc 1) (sc 1) (sc E) r =
      some ⟨put (put r 1 (col (u - x * E) (v - y * E))) 2 (col (u - x * E) (v - y * E)), trGX, hist'⟩ := by
  obtain ⟨e1, e2, e3, e4, e5, e6, e7⟩ := args_slots (a := a) (c := c) (d := d) (fl := fl)
  have hg : gradient (args a c d fl) (sc 1) (sc E) r = put r 1 (col (u - x * E) (v - y * E)) := by
    unfold gradient
    rw [e1, h0, h1, sc_mul, sc_conj, col_sc, col_sub, one_mul]
  have hp : precond (args a c d fl) (sc 1) (sc 1) (gradient (args a c d fl) (sc 1) (sc E) r) =
      put (put r 1 (col (u - x * E) (v - y * E))) 2 (col (u - x * E) (v - y * E)) := by
    rw [hg]
    unfold precond
    have hfl : (args a c d fl).fl.project = false := hf
    simp only [hfl, Bool.false_eq_true, if_false]
    have hk : applyK (args a c d fl) (put r 1 (col (u - x * E) (v - y * E)) 1) (put r 1 (col (u - x * E) (v - y * E)) 0) (sc 1) =
        col (u - x * E) (v - y * E) := by
      unfold applyK
      exact put_same _ _ _
    rw [hk]
    rfl
  unfold direction
  have hop : (args a c d fl).fl.orthoPre = false := ho
  unfold gammaNum orthoPre
  simp only [hop, e2, hp, Bool.false_eq_true, if_false, Option.map_some]
  exact ⟨_, _, rfl⟩

end steps

/-! ## The approximate line minimisation goes uphill -/

/-- Flags: approximate line minimisation only. -/
def approxFlags : Flags := ⟨false, true, false, true, false, true, false, false⟩

/-- The approximate line minimisation of the first iteration for `A = diag(1, 0)` and `Y = (3/5, 4/5)`. -/
theorem approx_col (r : ℕ → M 2 1) (fl : Flags) (prevE : ℝ) (l : Lin 2 1) (hl : l.prevTheta = 1 / 2) (h0 : l.r 0 = col (3 / 5) (4 / 5))
    (h1 : l.r 1 = col (48 / 125) (-36 / 125)) (h2 : l.r 2 = col (48 / 125) (-36 / 125)) :
    ∃ r' : ℕ → M 2 1, r' 0 = col 1 (1 / 2) ∧ r' 2 = col (48 / 125) (-36 / 125) ∧
      approxMin (args 1 0 0 fl) env1 0 (9 / 25) prevE l =
        if fl.forceApprox then some { l with r := r', U := sc (4 / 5), theta := 3 }
        else some { l with r := put r' 0 (col (3 / 5) (4 / 5)), U := sc (4 / 5), theta := 3, prevTheta := Real.arctan (1 / 2), useLinmin := true, forceExact := true } := by
  obtain ⟨e1, e2, e3, e4, e5, e6, e7⟩ := args_slots (a := 1) (c := 0) (d := 0) (fl := fl)
  have hB : (args 1 0 0 fl).B = none := rfl
  have hsp : ∀ it site k r', spoil (args 1 0 0 fl) env1 it site k r' = r' := fun _ _ _ r' => rfl
  have hA : (args 1 0 0 fl).A = sym 1 0 0 := rfl
  have hfl : (args 1 0 0 fl).fl = fl := rfl
  have hn : Real.sqrt (trXtY (col (48 / 125) (-36 / 125)) (col (48 / 125) (-36 / 125)) / ((1 : ℕ) : ℝ)) = 12 / 25 := by
    unfold trXtY
    rw [col_over, sc_trace]
    rw [show ((48 / 125 * (48 / 125) + -36 / 125 * (-36 / 125)) / ((1 : ℕ) : ℝ) : ℝ) = (12 / 25) ^ 2 by norm_num]
    exact Real.sqrt_sq (by norm_num)
  have hdE : 2 * trXtY (col (48 / 125) (-36 / 125)) (col (48 / 125) (-36 / 125)) / (12 / 25) = 24 / 25 := by
    unfold trXtY
    rw [col_over, sc_trace]
    norm_num
  refine ⟨put (put l.r 0 (col 1 (1 / 2))) 1 (col 1 0), by rw [put_ne _ _ (by decide), put_same], by
    rw [put_ne _ _ (by decide), put_ne _ _ (by decide), h2], ?_⟩
  unfold approxMin opB opA
  simp only [hB, e1, e3, e4, e6, hfl, hsp, h0, h1, h2, hn, hdE, hl]
  rw [if_neg (by norm_num), if_neg (show ¬ ((24 : ℝ) / 25 < 0) by norm_num), abs_of_pos (show (0 : ℝ) < 1 / 2 by norm_num)]
  have hY : col (3 / 5) (4 / 5) + ((((1 : ℝ) / 2 / (12 / 25) : ℝ)) : ℂ) • col (48 / 125) (-36 / 125) = col 1 (1 / 2) := by
    rw [col_smul, col_add]
    exact col_ext (by norm_num) (by norm_num)
  have hi : env1.inv (sc (1 * 1 + 1 / 2 * (1 / 2))) = some (sc (4 / 5)) := by
    rw [env1_inv (by norm_num)]
    norm_num
  rw [hY]
  simp only [put_same, put_ne _ _ (show (0 : ℕ) ≠ 1 by decide), put_ne _ _ (show (2 : ℕ) ≠ 1 by decide), put_ne _ _ (show (2 : ℕ) ≠ 0 by decide), hi, hA,
    sym_col, col_over, sc_conj, sc_mul, sc_trace, h2]
  rw [if_neg (by norm_num), if_neg (by norm_num), if_pos (Or.inl (by norm_num))]
  have hcol : col (1 * 1 + 0 * (1 / 2)) (0 * 1 + 0 * (1 / 2)) = col 1 0 := col_ext (by norm_num) (by norm_num)
  rw [hcol]
  split_ifs
  · norm_num
  · have hb : col 1 (1 / 2) + (((-(1 / 2) / (12 / 25) : ℝ)) : ℂ) • col (48 / 125) (-36 / 125) = col (3 / 5) (4 / 5) := by
      rw [col_smul, col_add]
      exact col_ext (by norm_num) (by norm_num)
    rw [hb]
    norm_num

/-- The beginning of the runs below. -/
theorem begin_col {a c d : ℝ} {fl : Flags} (ho : fl.orthoFirst = false) (Y : M 2 1) (work : ℕ → M 2 1) :
    begin (args a c d fl) env1 (initial (args a c d fl) Y work) = some { initial (args a c d fl) Y work with hist := fun _ => 10000 } := by
  unfold begin
  have : (args a c d fl).fl.orthoFirst = false := ho
  simp only [this, Bool.false_eq_true, if_false, Option.map_some]
  rfl

/-- A run of two iterations. -/
theorem two_steps {a : Args 2 1} (g : Good a) (hw : 2 + nB a ≤ a.nWork) {Y : M 2 1} {work : ℕ → M 2 1} {s s1 : St 2 1} {E : ℝ}
    (hb : begin a env1 (initial a Y work) = some s) (h1 : step a env1 s = .next s1 E) (hi : Function.Injective (s1.r 0).mulVec)
    (hit : s1.iter < maxIterations) (hC : Constrained a (s1.r 0))
    (hc : Converged a.tol s1.iter (Spec.rayleigh a.A (Bm a) (s1.r 0)) s1.prevE) (f : ℕ) :
    ∃ sol, eigensolver a env1 (f + 2) Y work = some sol ∧ sol.log = [.trace E, .trace (Spec.rayleigh a.A (Bm a) (s1.r 0))] := by
  obtain ⟨s2, h2⟩ := step_ends g env1_ok s1 hi hc
  obtain ⟨c1, c2, c3, c4, c5, -⟩ := step_converged g env1_ok hC h2
  obtain ⟨Z, vals, f1, -⟩ := finish_spec g env1_ok c4 c5
  have hl : loop a env1 (f + 2) s [] = .done s2 [.trace (Spec.rayleigh a.A (Bm a) (s1.r 0)), .trace E] := by
    rw [loop, h1]
    simp only
    rw [if_pos hit, loop, h2]
  refine ⟨⟨Z, vals, s2.iter, [.trace E, .trace (Spec.rayleigh a.A (Bm a) (s1.r 0))]⟩, ?_, rfl⟩
  unfold eigensolver
  rw [if_neg (by omega), hb]
  simp only [hl, f1]
  rfl

/-- C68 fails for the approximate line minimisation (`EIGS_FORCE_APPROX_LINMIN`): with `A = diag(1, 0)` and the starting vector
`(3/5, 4/5)` the reported trace goes from 9/25 up to 4/5.  The trial step goes along the gradient uphill, and if the curvature found there
is negative the block stays at the trial point. -/
theorem C68_approx_refuted (work : ℕ → M 2 1) : Good (args 1 0 0 approxFlags) ∧ EnvOK env1 ∧
    ∃ sol, eigensolver (args 1 0 0 approxFlags) env1 2 (col (3 / 5) (4 / 5)) work = some sol ∧ sol.log = [.trace (9 / 25), .trace (4 / 5)] := by
  refine ⟨args_good _ _ _ _, env1_ok, ?_⟩
  have hb := begin_col (a := 1) (c := 0) (d := 0) (fl := approxFlags) rfl (col (3 / 5) (4 / 5)) work
  set s : St 2 1 := { initial (args 1 0 0 approxFlags) (col (3 / 5) (4 / 5)) work with hist := fun _ => 10000 } with hs
  have h0 : s.r 0 = col (3 / 5) (4 / 5) := rfl
  have hp := prepare_col (a := 1) (c := 0) (d := 0) (fl := approxFlags) s _ _ h0 (by norm_num)
  have ht := trace_col (a := 1) (c := 0) (d := 0) (fl := approxFlags) s.iter (put s.r 0 (col (3 / 5) (4 / 5))) (3 / 5) (4 / 5) (put_same _ _ _)
  have h1 : ∃ s1, step (args 1 0 0 approxFlags) env1 s = .next s1 (9 / 25) ∧ s1.r 0 = col 1 (1 / 2) ∧ s1.iter = 1 ∧ s1.prevE = 9 / 25 := by
    have hE : (3 / 5 * (1 * (3 / 5) + 0 * (4 / 5)) + 4 / 5 * (0 * (3 / 5) + 0 * (4 / 5)) : ℝ) = 9 / 25 := by norm_num
    have hc1 : col (1 * (3 / 5) + 0 * (4 / 5)) (0 * (3 / 5) + 0 * (4 / 5)) = col (3 / 5) 0 := col_ext (by norm_num) (by norm_num)
    rw [hE, hc1] at ht
    set r := put (put (put s.r 0 (col (3 / 5) (4 / 5))) 2 (col (3 / 5) 0)) 1 (col (3 / 5) 0) with hr
    obtain ⟨trGX, hist', hd⟩ := direction_col (a := 1) (c := 0) (d := 0) (fl := approxFlags) s
      (fun i => if i = s.iter % histSize then 200 * |9 / 25 - s.prevE| / (|9 / 25| + |s.prevE|) else s.hist i) s.prevTrGX r (3 / 5) (4 / 5) (3 / 5) 0 (9 / 25) rfl rfl
      (by rw [hr, put_ne _ _ (by decide), put_ne _ _ (by decide), put_same]) (by rw [hr, put_same])
    have hc2 : col (3 / 5 - 3 / 5 * (9 / 25)) (0 - 4 / 5 * (9 / 25)) = col (48 / 125) (-36 / 125) := col_ext (by norm_num) (by norm_num)
    rw [hc2] at hd
    set r2 := put (put r 1 (col (48 / 125) (-36 / 125))) 2 (col (48 / 125) (-36 / 125)) with hr2
    obtain ⟨r', q1, q2, q3⟩ := approx_col r2 approxFlags s.prevE ⟨r2, sc 1, 0, s.prevTheta, false, s.forceExact, 1, s.improvement⟩
      (by simp only [hs, initial]; norm_num)
      (by simp only; rw [hr2, put_ne _ _ (by decide), put_ne _ _ (by decide), hr, put_ne _ _ (by decide), put_ne _ _ (by decide), put_same])
      (by simp only; rw [hr2, put_ne _ _ (by decide), put_same]) (by simp only; rw [hr2, put_same])
    have hl : lineMin (args 1 0 0 approxFlags) env1 s.iter (9 / 25) s.prevE (sc (9 / 25)) (sc 1) ⟨r2, sc 1, 0, s.prevTheta, false, s.forceExact, 1, s.improvement⟩ =
        some ⟨r', sc (4 / 5), 3, s.prevTheta, false, s.forceExact, 1, s.improvement⟩ := by
      unfold lineMin
      have hit : s.iter = 0 := rfl
      rw [if_pos (show approxFlags.forceApprox = true from rfl)] at q3
      rw [hit]
      simp only [Bool.false_eq_true, if_false, q3, Option.bind_some]
    have hfa : (args 1 0 0 approxFlags).fl.forceApprox = true := rfl
    refine ⟨finishIter (args 1 0 0 approxFlags) env1 s (9 / 25) trGX hist' ⟨r', sc (4 / 5), 3, s.prevTheta, false, s.forceExact, 1, s.improvement⟩, ?_, ?_, rfl, rfl⟩
    · unfold step
      simp only [hp, ht, sc_trace, hfa, if_true]
      rw [if_neg (fun h => absurd h.1 (lt_irrefl 0)), hd]
      simp only [hl]
    · unfold finishIter
      exact q1
  obtain ⟨s1, h1, h2, h3, h4⟩ := h1
  have hpos : (0 : ℝ) < 1 * 1 + 1 / 2 * (1 / 2) := by norm_num
  have hR : Spec.rayleigh (args 1 0 0 approxFlags).A (Bm (args 1 0 0 approxFlags)) (s1.r 0) = 4 / 5 := by
    rw [h2, args_Bm]
    have := rayleigh_col (a := 1) (c := 0) (d := 0) 1 (1 / 2) hpos
    norm_num at this
    exact this
  obtain ⟨sol, r1, r2⟩ := two_steps (args_good 1 0 0 approxFlags) (le_refl _) hb h1 (by rw [h2]; exact col_injective hpos) (by rw [h3]; decide)
    (fun C h => by cases h) (by
      rw [hR, h3, h4]
      refine ⟨one_pos, ?_⟩
      simp only [args]
      rw [abs_of_pos (by norm_num)]
      norm_num) 0
  exact ⟨sol, r1, by rw [r2, hR]⟩

/-! ## A stale inverse after the approximate line minimisation -/

theorem half_sc (x : ℝ) : (0.5 : ℂ) • sc x = sc (x / 2) := by
  have : (0.5 : ℂ) = (((1 : ℝ) / 2 : ℝ) : ℂ) := by push_cast; norm_num
  rw [this, sc_smul]
  congr 1
  ring

theorem reTr_sc (x y : ℝ) : reTrAtB (sc x) (sc y) = x * y := by
  unfold reTrAtB
  rw [sc_conj, sc_mul, sc_trace]

/-- The matrices of the line minimisation for real blocks. -/
theorem data_col (x y u v g h E : ℝ) : dataOf (col x y) (col u v) (col u v) (col g h) (sc E) (sc 1) =
    ⟨sc E, sc (u * g + v * h), sc (x * g + y * h), sc 1, sc (u * u + v * v), sc (x * u + y * v), 0, 0, 0, 0, 0⟩ := by
  unfold dataOf
  simp only [col_over, sc_conj, sc_add, sc_mul, half_sc]
  norm_num

/-- C68 (slope) fails when the approximate line minimisation gives up: the block is put back where it was, but not the inverse of its
overlap matrix, so that the slope handed to the exact line minimisation is not the derivative of the trace: with `A = diag(1, 0)`,
`Y = (3/5, 4/5)` the slope along the normalised direction `(4/5, -3/5)` is 24/25, but 96/125 is passed. -/
theorem C68_stale_refuted (r : ℕ → M 2 1) (h0 : r 0 = col (3 / 5) (4 / 5)) (h1 : r 1 = col (48 / 125) (-36 / 125))
    (h2 : r 2 = col (48 / 125) (-36 / 125)) (prevE : ℝ) :
    ∃ l', approxMin (args 1 0 0 defaultFlags) env1 0 (9 / 25) prevE ⟨r, sc 1, 0, 1 / 2, false, false, 1, 0⟩ = some l' ∧ l'.useLinmin = true ∧
      l'.r 0 = r 0 ∧ l'.r 2 = r 2 ∧
      slopeOf (dataOf (col (3 / 5) (4 / 5)) (col (4 / 5) (-3 / 5)) (col (4 / 5) (-3 / 5)) (sym 1 0 0 * col (4 / 5) (-3 / 5)) (sc (9 / 25)) (sc 1))
        (sc (9 / 25)) l'.U = 96 / 125 ∧
      HasDerivAt (fun t => Spec.rayleigh (sym 1 0 0) 1 (Spec.moved (col (3 / 5) (4 / 5)) (col (4 / 5) (-3 / 5)) t)) (24 / 25) 0 := by
  obtain ⟨r', q1, q2, q3⟩ := approx_col r defaultFlags prevE ⟨r, sc 1, 0, 1 / 2, false, false, 1, 0⟩ rfl h0 h1 h2
  rw [if_neg (show ¬ (defaultFlags.forceApprox = true) by decide)] at q3
  refine ⟨_, q3, rfl, ?_, ?_, ?_, ?_⟩
  · simp only [put_same, h0]
  · simp only; rw [put_ne _ _ (by decide), q2, h2]
  · rw [sym_col, data_col]
    unfold slopeOf
    simp only [sc_conj, sc_mul, reTr_sc]
    norm_num
  · have hf : (fun t => Spec.rayleigh (sym 1 0 0) 1 (Spec.moved (col (3 / 5) (4 / 5)) (col (4 / 5) (-3 / 5)) t)) =
        fun t => (Real.cos t * (3 / 5) + Real.sin t * (4 / 5)) ^ 2 := by
      funext t
      unfold Spec.moved
      have hn : (Real.cos t * (3 / 5) + Real.sin t * (4 / 5)) * (Real.cos t * (3 / 5) + Real.sin t * (4 / 5)) +
          (Real.cos t * (4 / 5) + Real.sin t * (-3 / 5)) * (Real.cos t * (4 / 5) + Real.sin t * (-3 / 5)) = 1 := by
        have := Real.sin_sq_add_cos_sq t
        linear_combination this
      rw [col_smul, col_smul, col_add, rayleigh_col _ _ (by rw [hn]; exact one_pos), hn]
      ring
    rw [hf]
    have h1 : HasDerivAt (fun t => (Real.cos t * (3 / 5) + Real.sin t * (4 / 5)))
        (-Real.sin 0 * (3 / 5) + Real.cos 0 * (4 / 5)) 0 := ((Real.hasDerivAt_cos 0).mul_const _).add ((Real.hasDerivAt_sin 0).mul_const _)
    refine (h1.pow 2).congr_deriv ?_
    simp
    norm_num

/-! ## A run with the exact line minimisation -/

/-- A line search whose first trial step is accepted. -/
theorem linminDown_first (P : Linmin.Par) (φ : ℝ → ℝ × ℝ) (n : ℕ) (x f0 g0 : ℝ) (w : Linmin.Saved) (hv : Linmin.Spec.ValidStart P x g0)
    (hf : (φ x).1 ≤ f0 + x * (P.ftol * g0)) (hg : |(φ x).2| ≤ P.gtol * (-g0)) :
    Linmin.linminDown P φ (n + 2) x f0 g0 w = .done x (φ x).1 (φ x).2 .conv := by
  obtain ⟨t, w', h1, -, -, h4⟩ := Linmin.C24_start P x f0 g0 w
  obtain ⟨rfl, hw⟩ := h4 hv
  have hstep : ∃ w'', Linmin.dcsrch P .fg x (φ x).1 (φ x).2 w' = some (.conv, x, w'') := by
    unfold Linmin.dcsrch
    simp only [reduceCtorEq, if_false, hw]
    have htt : ∀ st, Linmin.testTask P { Linmin.initLocal P x f0 g0 with stage := st } x (φ x).1 (φ x).2 = .conv := by
      intro st
      rw [Linmin.testTask_conv]
      exact ⟨hf, hg⟩
    rw [htt]
    simp only [or_true, if_true]
    exact ⟨_, rfl⟩
  obtain ⟨w'', hstep⟩ := hstep
  unfold Linmin.linminDown
  rw [h1]
  simp only
  rw [Linmin.loop, if_pos rfl]
  simp only [hstep]
  rw [Linmin.loop, if_neg (by simp)]
  simp [Linmin.Task.isError]

/-- The default flags with the exact line minimisation forced. -/
def exactFlags : Flags := ⟨false, true, true, false, false, true, false, false⟩

theorem args_exact (a c d : ℝ) : Exact (args a c d exactFlags) env1 := ⟨Or.inl rfl, rfl, rfl, Or.inr rfl⟩

section exact

/-- The off-diagonal element of the operator. -/
noncomputable def cc : ℝ := 1 / 2000

theorem moved_col (t : ℝ) : Spec.moved (col 1 0) (col 0 1) t = col (Real.cos t) (Real.sin t) := by
  unfold Spec.moved
  rw [col_smul, col_smul, col_add]
  exact col_ext (by ring) (by ring)

theorem circle (t : ℝ) : Real.cos t * Real.cos t + Real.sin t * Real.sin t = 1 := by
  have := Real.sin_sq_add_cos_sq t
  linear_combination this

/-- The trace along the line. -/
theorem rayleigh_circle (t : ℝ) : Spec.rayleigh (sym 1 cc 2) 1 (col (Real.cos t) (Real.sin t)) =
    1 + Real.sin t ^ 2 + 2 * cc * Real.sin t * Real.cos t := by
  rw [rayleigh_col _ _ (by rw [circle]; exact one_pos), circle]
  have := circle t
  linear_combination this

theorem small_bounds : Real.sin cc ≤ cc ∧ cc - cc ^ 3 / 6 ≤ Real.sin cc ∧ 1 - cc ^ 2 / 2 ≤ Real.cos cc ∧ Real.cos cc ≤ 1 := by
  have h : (0 : ℝ) < cc ∧ cc ≤ 1 := by norm_num [cc]
  exact ⟨(Real.sin_lt h.1).le, (Real.sin_gt_sub_cube h.1).le, Real.one_sub_sq_div_two_le_cos, Real.cos_le_one _⟩

theorem small_double : |(-Real.sin (2 * cc) + 2 * cc * Real.cos (2 * cc))| ≤ (10 : ℝ) ^ (-6 : ℤ) * (2 * cc) := by
  have h : (0 : ℝ) < 2 * cc ∧ 2 * cc ≤ 1 := by norm_num [cc]
  have b1 := (Real.sin_lt h.1).le
  have b2 := (Real.sin_gt_sub_cube h.1).le
  have b3 := Real.one_sub_sq_div_two_le_cos (x := 2 * cc)
  have b4 := Real.cos_le_one (2 * cc)
  generalize Real.sin (2 * cc) = S at *
  generalize Real.cos (2 * cc) = C at *
  have e : cc = 1 / 2000 := rfl
  rw [e] at b1 b2 b3 ⊢
  rw [abs_le]
  norm_num at b1 b2 b3 ⊢
  constructor <;> linarith

/-- The line minimisation of the first iteration. -/
theorem exact_col (r : ℕ → M 2 1) (h0 : r 0 = col 1 0) (h2 : r 2 = col 0 cc) (l : Lin 2 1) (hr : l.r = r) (hU : l.U = sc 1) :
    ∃ l', exactMin (args 1 cc 2 exactFlags) env1 0 1 (sc 1) (sc 1) l = some l' ∧ l'.r 0 = col (Real.cos (-cc)) (Real.sin (-cc)) := by
  obtain ⟨e1, e2, e3, e4, e5, e6, e7⟩ := args_slots (a := 1) (c := cc) (d := 2) (fl := exactFlags)
  have hB : (args 1 cc 2 exactFlags).B = none := rfl
  have hsp : ∀ it site k r', spoil (args 1 cc 2 exactFlags) env1 it site k r' = r' := fun _ _ _ r' => rfl
  have hA : (args 1 cc 2 exactFlags).A = sym 1 cc 2 := rfl
  have htol : (args 1 cc 2 exactFlags).tol = 1 := rfl
  have hc0 : (0 : ℝ) < cc := by norm_num [cc]
  have hn : Real.sqrt (trXtY (col 0 cc) (col 0 cc) / ((1 : ℕ) : ℝ)) = cc := by
    unfold trXtY
    rw [col_over, sc_trace]
    rw [show ((0 * 0 + cc * cc) / ((1 : ℕ) : ℝ) : ℝ) = cc ^ 2 by push_cast; ring]
    exact Real.sqrt_sq hc0.le
  have hD : (((1 : ℝ) / cc : ℝ) : ℂ) • col 0 cc = col 0 1 := by
    rw [col_smul]
    exact col_ext (by ring) (by field_simp)
  have hdata : dataOf (col 1 0) (col 0 1) (col 0 1) (sym 1 cc 2 * col 0 1) (sc 1) (sc 1) = traceData (sym 1 cc 2) 1 0 (col 1 0) (col 0 1) 0 0 := by
    unfold dataOf traceData
    simp only [sym_col, col_over, Matrix.one_mul, Matrix.zero_mul, Matrix.mul_zero, Matrix.trace_zero, Complex.zero_re, sc_conj, sc_mul]
    norm_num
  have hslope : slopeOf (dataOf (col 1 0) (col 0 1) (col 0 1) (sym 1 cc 2 * col 0 1) (sc 1) (sc 1)) (sc 1) (sc 1) = 2 * cc := by
    rw [sym_col, data_col]
    unfold slopeOf
    simp only [sc_conj, sc_mul, reTr_sc]
    ring
  have hcurv : curvatureOf (dataOf (col 1 0) (col 0 1) (col 0 1) (sym 1 cc 2 * col 0 1) (sc 1) (sc 1)) (sc 1) (sc 1) = 2 := by
    rw [sym_col, data_col]
    unfold curvatureOf
    simp only [sc_conj, sc_mul, sc_smul, sc_add, reTr_sc]
    ring
  have hguess : Linmin.thetaGuess (2 * cc) 2 l.prevTheta = -cc := by
    unfold Linmin.thetaGuess
    have a1 : ¬ ((2 : ℝ) < 0 ∨ (2 : ℝ) = 0) := by norm_num
    have a2 : (-(2 * cc) / 2 : ℝ) = -cc := by ring
    have a3 : ¬ (|-cc| ≥ Real.pi) := by
      rw [abs_neg, abs_of_pos hc0]
      have := Real.pi_gt_three
      norm_num [cc]
      linarith
    simp only [if_neg a1, a2, if_neg a3]
  set φ : ℝ → ℝ × ℝ := fun t => (traceFunc env1.inv (dataOf (col 1 0) (col 0 1) (col 0 1) (sym 1 cc 2 * col 0 1) (sc 1) (sc 1)) t).getD (0, 0) with hφ
  have hval : φ (-cc) = (1 + Real.sin cc ^ 2 - 2 * cc * Real.sin cc * Real.cos cc, -Real.sin (2 * cc) + 2 * cc * Real.cos (2 * cc)) := by
    obtain ⟨sl, s1, s2⟩ := C26_trace_func (sym_herm 1 cc 2) Matrix.PosDef.one (Matrix.isHermitian_zero (n := Fin 2)) (col 1 0) (col 0 1) 0 0 env1_ok.inv (-cc)
      (by rw [moved_col]; exact col_injective (by rw [circle]; exact one_pos))
    have hobj : Spec.objective (sym 1 cc 2) 1 0 (col 1 0) (col 0 1) 0 0 = fun t => 1 + Real.sin t ^ 2 + 2 * cc * Real.sin t * Real.cos t := by
      funext t
      have := rayleigh_circle t
      unfold Spec.rayleigh at this
      unfold Spec.objective
      simp only [moved_col, zero_mul, add_zero]
      exact this
    have hder : HasDerivAt (fun t => 1 + Real.sin t ^ 2 + 2 * cc * Real.sin t * Real.cos t)
        (-Real.sin (2 * cc) + 2 * cc * Real.cos (2 * cc)) (-cc) := by
      have k1 := ((Real.hasDerivAt_sin (-cc)).pow 2).const_add 1
      have k2 := ((Real.hasDerivAt_sin (-cc)).const_mul (2 * cc)).mul (Real.hasDerivAt_cos (-cc))
      refine (k1.add k2).congr_deriv ?_
      rw [Real.sin_two_mul, Real.cos_two_mul, Real.sin_neg, Real.cos_neg]
      have := circle cc
      simp only [Nat.cast_ofNat, Nat.add_one_sub_one, pow_one]
      linear_combination (-2 * cc) * this
    rw [hobj] at s1 s2
    rw [hφ]
    simp only [hdata, s1, Option.getD_some, Prod.mk.injEq]
    refine ⟨?_, s2.unique hder⟩
    rw [Real.sin_neg, Real.cos_neg]
    ring
  have hlin : Linmin.linmin (Linmin.solverPar 1 (2 * cc)) φ (env1.evals + 1) (-cc) 1 (2 * cc) env1.work =
      .done (-cc) (φ (-cc)).1 (φ (-cc)).2 .conv := by
    unfold Linmin.linmin
    rw [if_pos (by linarith)]
    have hP : Linmin.solverPar 1 (2 * cc) = ⟨0.1, 10 ^ (-6 : ℤ), 10 ^ (-14 : ℤ), 0, -Real.pi⟩ := by
      unfold Linmin.solverPar
      rw [if_pos (by linarith), min_eq_right (by norm_num)]
    rw [hP]
    simp only [neg_neg, neg_zero]
    have hrev : Linmin.reverse φ cc = ((φ (-cc)).1, -(φ (-cc)).2) := rfl
    obtain ⟨b1, b2, b3, b4⟩ := small_bounds
    have := linminDown_first ⟨0.1, 10 ^ (-6 : ℤ), 10 ^ (-14 : ℤ), 0, Real.pi⟩ (Linmin.reverse φ) 0 cc 1 (-(2 * cc)) env1.work
      ⟨hc0.le, by simp only; have := Real.pi_gt_three; norm_num [cc]; linarith, by linarith, by norm_num, by positivity, by positivity, le_refl _, Real.pi_pos.le⟩
      (by
        rw [hrev, hval]
        simp only
        have e : cc = 1 / 2000 := rfl
        generalize Real.sin cc = S at *
        generalize Real.cos cc = C at *
        rw [e] at *
        norm_num at *
        nlinarith)
      (by
        rw [hrev, hval]
        simp only [abs_neg, neg_neg]
        exact small_double)
    rw [show env1.evals + 1 = 0 + 2 from rfl, this, hrev]
    simp only [neg_neg]
  unfold exactMin opB opA
  simp only [hB, e3, e4, hr, h0, h2, hn, Option.isSome_none, Bool.false_eq_true, if_false, put_same, hD, hsp, hA, hU, htol]
  rw [if_neg hc0.ne']
  simp only [put_ne _ _ (show (0 : ℕ) ≠ 1 by decide), put_ne _ _ (show (2 : ℕ) ≠ 1 by decide), put_ne _ _ (show (0 : ℕ) ≠ 2 by decide), put_same, h0]
  rw [hslope, hcurv, hguess, hlin]
  refine ⟨_, rfl, ?_⟩
  simp only [put_same]
  rw [col_smul, col_smul, col_add]
  exact col_ext (by ring) (by ring)

/-- Non-vacuity of `C68_descent`, `C74_result`, `C75_solver`: a complete run with the exact line minimisation, in which the trace
decreases. -/
theorem exact_run (work : ℕ → M 2 1) : Good (args 1 cc 2 exactFlags) ∧ EnvOK env1 ∧ Exact (args 1 cc 2 exactFlags) env1 ∧
    ∃ sol E', eigensolver (args 1 cc 2 exactFlags) env1 2 (col 1 0) work = some sol ∧ sol.log = [.trace 1, .trace E'] ∧ E' < 1 := by
  refine ⟨args_good _ _ _ _, env1_ok, args_exact _ _ _, ?_⟩
  have hb := begin_col (a := 1) (c := cc) (d := 2) (fl := exactFlags) rfl (col 1 0) work
  set s : St 2 1 := { initial (args 1 cc 2 exactFlags) (col 1 0) work with hist := fun _ => 10000 } with hs
  have h0 : s.r 0 = col 1 0 := rfl
  have hp := prepare_col (a := 1) (c := cc) (d := 2) (fl := exactFlags) s _ _ h0 (by norm_num)
  have ht := trace_col (a := 1) (c := cc) (d := 2) (fl := exactFlags) s.iter (put s.r 0 (col 1 0)) 1 0 (put_same _ _ _)
  have h1 : ∃ s1, step (args 1 cc 2 exactFlags) env1 s = .next s1 1 ∧ s1.r 0 = col (Real.cos (-cc)) (Real.sin (-cc)) ∧ s1.iter = 1 ∧ s1.prevE = 1 := by
    have hE : (1 * (1 * 1 + cc * 0) + 0 * (cc * 1 + 2 * 0) : ℝ) = 1 := by norm_num
    have hc1 : col (1 * 1 + cc * 0) (cc * 1 + 2 * 0) = col 1 cc := col_ext (by norm_num) (by norm_num)
    rw [hE, hc1] at ht
    set r := put (put (put s.r 0 (col 1 0)) 2 (col 1 cc)) 1 (col 1 cc) with hr
    obtain ⟨trGX, hist', hd⟩ := direction_col (a := 1) (c := cc) (d := 2) (fl := exactFlags) s
      (fun i => if i = s.iter % histSize then 200 * |1 - s.prevE| / (|1| + |s.prevE|) else s.hist i) s.prevTrGX r 1 0 1 cc 1 rfl rfl
      (by rw [hr, put_ne _ _ (by decide), put_ne _ _ (by decide), put_same]) (by rw [hr, put_same])
    have hc2 : col (1 - 1 * 1) (cc - 0 * 1) = col 0 cc := col_ext (by norm_num) (by norm_num)
    rw [hc2] at hd
    set r2 := put (put r 1 (col 0 cc)) 2 (col 0 cc) with hr2
    obtain ⟨l', q1, q2⟩ := exact_col r2
      (by rw [hr2, put_ne _ _ (by decide), put_ne _ _ (by decide), hr, put_ne _ _ (by decide), put_ne _ _ (by decide), put_same])
      (by rw [hr2, put_same]) ⟨r2, sc 1, 0, s.prevTheta, true, s.forceExact, 1, s.improvement⟩ rfl rfl
    have hl : lineMin (args 1 cc 2 exactFlags) env1 s.iter 1 s.prevE (sc 1) (sc 1) ⟨r2, sc 1, 0, s.prevTheta, true, s.forceExact, 1, s.improvement⟩ = some l' := by
      unfold lineMin
      have hit : s.iter = 0 := rfl
      rw [hit]
      simp only [if_true, q1, Option.bind_some]
    have hfa : (args 1 cc 2 exactFlags).fl.forceApprox = false := rfl
    have hul : s.useLinmin = true := rfl
    refine ⟨finishIter (args 1 cc 2 exactFlags) env1 s 1 trGX hist' l', ?_, ?_, rfl, rfl⟩
    · unfold step
      simp only [hp, ht, sc_trace, hfa, hul, Bool.false_eq_true, if_false]
      rw [if_neg (fun h => absurd h.1 (lt_irrefl 0)), hd]
      simp only [hl]
    · unfold finishIter
      exact q2
  obtain ⟨s1, h1, h2, h3, h4⟩ := h1
  have hpos : (0 : ℝ) < Real.cos (-cc) * Real.cos (-cc) + Real.sin (-cc) * Real.sin (-cc) := by rw [circle]; exact one_pos
  have hR : Spec.rayleigh (args 1 cc 2 exactFlags).A (Bm (args 1 cc 2 exactFlags)) (s1.r 0) =
      1 + Real.sin cc ^ 2 - 2 * cc * Real.sin cc * Real.cos cc := by
    rw [h2, args_Bm]
    have := rayleigh_circle (-cc)
    rw [Real.sin_neg, Real.cos_neg] at this ⊢
    refine this.trans ?_
    ring
  obtain ⟨b1, b2, b3, b4⟩ := small_bounds
  have hlt : 1 + Real.sin cc ^ 2 - 2 * cc * Real.sin cc * Real.cos cc < 1 ∧ 1 / 2 < 1 + Real.sin cc ^ 2 - 2 * cc * Real.sin cc * Real.cos cc := by
    have e : cc = 1 / 2000 := rfl
    generalize Real.sin cc = S at *
    generalize Real.cos cc = C at *
    rw [e] at *
    norm_num at *
    constructor <;> nlinarith
  obtain ⟨sol, r1, r2⟩ := two_steps (args_good 1 cc 2 exactFlags) (le_refl _) hb h1 (by rw [h2]; exact col_injective hpos) (by rw [h3]; decide)
    (fun C h => by cases h) (by
      rw [hR, h3, h4]
      refine ⟨one_pos, ?_⟩
      simp only [args]
      rw [abs_of_neg (by linarith [hlt.1])]
      linarith [hlt.1, hlt.2]) 0
  exact ⟨sol, _, r1, by rw [r2, hR], hlt.1⟩

end exact

/-! ## The hypotheses of the other theorems -/

/-- Non-vacuity of `C75_upper_bound`: the modes of `diag(1, 0)`, and the Ritz value 9/25 of `(3/5, 4/5)`. -/
example : Spec.Modes (sym 1 0 0) 1 (fun _ => True) (Matrix.of ![![0, 1], ![1, 0]] : Matrix (Fin 2) (Fin 2) ℂ) ![0, 1] ∧
    Spec.RitzBasis (sym 1 0 0) 1 (col (3 / 5) (4 / 5)) (fun _ => 9 / 25) := by
  refine ⟨⟨?_, ?_, ?_, fun x _ => ⟨![x 1, x 0], ?_⟩⟩, ⟨?_, ?_, fun _ _ _ => le_refl _⟩⟩
  · ext i j; fin_cases i <;> fin_cases j <;> simp [Matrix.mul_apply]
  · ext i j; fin_cases i <;> fin_cases j <;> simp [Matrix.mul_apply, sym, Matrix.diagonal]
  · intro i j h
    fin_cases i <;> fin_cases j <;> simp at h ⊢
  · funext i; fin_cases i <;> simp [Matrix.mulVec, dotProduct]
  · rw [Matrix.mul_one, col_over, ← sc_one]; norm_num
  · rw [Matrix.mul_assoc, sym_col, col_over]
    refine sq1_ext ?_
    simp [sc, Matrix.diagonal]
    norm_num

/-- Non-vacuity of `C76_exact_start_refuted`: the mode `(1, 0)` of `diag(1, 0)`. -/
example (work : ℕ → M 2 1) (fuel : ℕ) : eigensolver (args 1 0 0 defaultFlags) env1 fuel (col 1 0) work = none :=
  C76_exact_start_refuted (args_good 1 0 0 _) env1_ok rfl rfl (fun K h => by cases h) fuel _ work (col_injective (by norm_num)) (fun C h => by cases h)
    (S := sc 1) (by
      show sym 1 0 0 * col 1 0 = 1 * col 1 0 * sc 1
      rw [Matrix.one_mul, sym_col, col_sc]
      exact col_ext (by norm_num) (by norm_num))

/-- Non-vacuity of `C76_stationary`: the preparation of `(3/5, 4/5)` succeeds. -/
example (s : St 2 1) (h : s.r 0 = col (3 / 5) (4 / 5)) : ∃ r YtBY U tr, prepare (args 1 0 0 defaultFlags) env1 s = .ok r YtBY U tr :=
  prepare_ok (args_good 1 0 0 _) env1_ok s (by rw [h]; exact col_injective (by norm_num))

/-- Non-vacuity of `C74_negative_refuted`: `diag(-2, -3)`. -/
example (Y : M 2 1) (work : ℕ → M 2 1) (fuel : ℕ) : eigensolver (args (-2) 0 (-3) defaultFlags) env1 fuel Y work = none := by
  refine C74_negative_refuted (args_good _ _ _ _) env1_ok ?_ fuel Y work
  have h : -(args (-2) 0 (-3) defaultFlags).A - Bm (args (-2) 0 (-3) defaultFlags) = Matrix.diagonal ![1, 2] := by
    rw [args_Bm]
    show -sym (-2) 0 (-3) - 1 = _
    ext i j
    fin_cases i <;> fin_cases j <;> simp [sym] <;> norm_num
  rw [h]
  refine Matrix.PosSemidef.diagonal fun i => ?_
  fin_cases i <;> simp

end Mpb.Eig

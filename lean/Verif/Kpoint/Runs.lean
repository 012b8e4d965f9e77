import Verif.Kpoint.Props

/-!
# Runs with two blocks
-/

namespace Mpb.Davidson

open Matrix Mpb.Solver Mpb.Eig

variable {N p : ℕ}

/-- The same problem, with fields confined to the range of `Q`. -/
def confine (a : Args N p) (Q : Matrix (Fin N) (Fin N) ℂ) : Args N p := { a with C := some (a.C.getD 1 * Q) }

/-- `Q` is a projection which everything in the problem respects. -/
structure Sector (a : Args N p) (Q : Matrix (Fin N) (Fin N) ℂ) : Prop where
  idem : Q * Q = Q
  A : Q * a.A = a.A * Q
  C : ∀ C, a.C = some C → Q * C = C * Q
  K : ∀ K, a.K = some K → ∀ (X Y : M N p) v, Q * X = X → Q * Y = Y → Q * K X Y v = K X Y v

theorem sector_C {a : Args N p} {Q : Matrix (Fin N) (Fin N) ℂ} (h : Sector a Q) : Q * a.C.getD 1 = a.C.getD 1 * Q := by
  cases hC : a.C with
  | none => simp
  | some C => exact h.C C hC

theorem confine_good {a : Args N p} (g : Good a) {Q : Matrix (Fin N) (Fin N) ℂ} (h : Sector a Q) : Good (confine a Q) := by
  refine ⟨g.hp, g.hA, fun C hC => ?_⟩
  cases hC
  have hcc : a.C.getD 1 * a.C.getD 1 = a.C.getD 1 := by
    cases hC : a.C with
    | none => simp
    | some C => exact g.idem C hC
  rw [show a.C.getD 1 * Q * (a.C.getD 1 * Q) = a.C.getD 1 * (Q * a.C.getD 1) * Q by simp only [Matrix.mul_assoc], sector_C h, ← Matrix.mul_assoc, hcc,
    Matrix.mul_assoc, h.idem]

theorem confined_sector {a : Args N p} {Q : Matrix (Fin N) (Fin N) ℂ} (h : Sector a Q) {Y : M N p} (hY : Constrained (confine a Q) Y) : Q * Y = Y := by
  have := hY _ rfl
  rw [← this, ← Matrix.mul_assoc, ← Matrix.mul_assoc, sector_C h, Matrix.mul_assoc (a.C.getD 1), h.idem]

theorem constrain_confine {a : Args N p} {Q : Matrix (Fin N) (Fin N) ℂ} {X : M N p} (hX : Q * X = X) : constrain (confine a Q) X = constrain a X := by
  unfold constrain confine
  simp only
  cases a.C with
  | none => simp [hX]
  | some C => simp only [Option.getD_some]; rw [Matrix.mul_assoc, hX]

theorem expand_confine {a : Args N p} {e : Env N p} (hp : 0 < p) {Q : Matrix (Fin N) (Fin N) ℂ} (h : Sector a Q) {s : St N p} {w : Ritz N p}
    (R : RitzOK (confine a Q) e hp s w) : expand (confine a Q) e s w = expand a e s w := by
  have hY := confined_sector h R.constr
  have hAY : stack hp w.AV (size p s.ibasis) * (rows p (size p s.ibasis) w.it w.S)ᴴ = a.A * w.Y := by
    rw [R.Y, ← Matrix.mul_assoc, mul_stack]
    congr 1
    exact stack_congr hp rfl (fun i hi => R.AV i hi)
  have key : constrain (confine a Q) (applyK (confine a Q) (residual (a.A * w.Y) w.Y w.vals) w.Y w.vals) =
      constrain a (applyK a (residual (a.A * w.Y) w.Y w.vals) w.Y w.vals) := by
    rw [constrain_confine]
    · rfl
    · have hres : Q * residual (a.A * w.Y) w.Y w.vals = residual (a.A * w.Y) w.Y w.vals := by
        unfold residual
        rw [Matrix.mul_sub, ← Matrix.mul_assoc, ← Matrix.mul_assoc, h.A, Matrix.mul_assoc a.A, hY]
      unfold applyK confine
      simp only
      cases hK : a.K with
      | none => exact hres
      | some K => exact h.K K hK _ _ _ hres hY
  have hk : ∀ X Y v, applyK (confine a Q) X Y v = applyK a X Y v := fun _ _ _ => rfl
  rw [hk] at key
  unfold expand
  simp only [hk]
  simp only [combine_eq hp (Nat.succ_pos s.ibasis) R.itq rfl, Option.bind_some, hAY]
  by_cases hr : (s.ibasis + 1) % nbasis a = 0
  · have hr' : (s.ibasis + 1) % nbasis (confine a Q) = 0 := hr
    simp only [hr, hr', decide_true, if_true, Function.update_self, ne_eq, one_ne_zero, not_false_eq_true, Function.update_of_ne, zero_ne_one, key]
  · have hr' : ¬ (s.ibasis + 1) % nbasis (confine a Q) = 0 := hr
    have hn : nbasis (confine a Q) = nbasis a := rfl
    simp only [hr, hr', decide_false, Bool.false_eq_true, if_false, Function.update_self, key, hn]

theorem loop_confine {a : Args N p} {e : Env N p} (g : Good a) (he : EnvOK e) (hn : 4 ≤ a.nWork) {Q : Matrix (Fin N) (Fin N) ℂ} (h : Sector a Q) :
    ∀ (f : ℕ) (s : St N p) (log : List (Fin p → ℝ)), Inv (confine a Q) g.hp s → loop (confine a Q) e f s log = loop a e f s log := by
  intro f
  induction f with
  | zero => intro s log _; rfl
  | succ f ih =>
    intro s log I
    obtain ⟨w, hw, R⟩ := ritz_spec (e := e) (confine_good g h) he I
    have hw' : ritz a e s = some w := hw
    simp only [loop, hw, hw']
    rw [expand_confine g.hp h R]
    have ht : (confine a Q).tol = a.tol := rfl
    rw [ht]
    cases hx : expand a e s w with
    | none => rfl
    | some s1 =>
      obtain ⟨i1, -⟩ := expand_spec (confine_good g h) he hn I R ((expand_confine g.hp h R).trans hx)
      simp only
      rw [ih s1 _ i1]

/-- A run that starts in a space which the problem respects never leaves it. -/
theorem davidson_sector {a : Args N p} {e : Env N p} (g : Good a) (he : EnvOK e) {Q : Matrix (Fin N) (Fin N) ℂ} (h : Sector a Q) {fuel : ℕ} {Y : M N p}
    {work : ℕ → M N p} (hY : Q * Y = Y) {sol : Solution N p} (hs : davidson a e fuel Y work = some sol) : Q * sol.Y = sol.Y := by
  have hn : 4 ≤ a.nWork := (davidson_inv hs).1
  have hi : initial (confine a Q) e Y work = initial a e Y work := by
    unfold initial
    simp only
    rw [constrain_confine hY]
    rfl
  have hd : davidson (confine a Q) e fuel Y work = some sol := by
    rw [← hs]
    unfold davidson
    have hw : (confine a Q).nWork = a.nWork := rfl
    rw [hw, hi]
    cases hi0 : initial a e Y work with
    | none => rfl
    | some s =>
      obtain ⟨I, -⟩ := initial_spec (confine_good g h) he hn (hi.trans hi0)
      simp only [Option.bind_some]
      rw [loop_confine g he hn h fuel s [] I]
      rfl
  obtain ⟨-, r2, -⟩ := C80_result (confine_good g h) he hd
  exact confined_sector h r2

/-- One band, started from a field that is no solution: with a coarse tolerance the run returns. -/
theorem one_returns {a : Args N 1} {e : Env N 1} (g : Good a) (he : EnvOK e) (hn : 4 ≤ a.nWork) (ht : 2 ≤ a.tol) (hK : a.K = some (fun X _ _ => X))
    {C : Matrix (Fin N) (Fin N) ℂ} (hC : a.C = some C) {y : M N 1} (hCy : C * y = y) (hCA : C * (a.A * y) = a.A * y) (hy : y ≠ 0)
    (hind : ∀ k : ℂ, a.A * y ≠ k • y) (work : ℕ → M N 1) : ∃ sol, davidson a e 100000 y work = some sol := by
  have hcon : ∀ X : M N 1, constrain a X = C * X := fun X => by unfold constrain; rw [hC]
  have hinj : Function.Injective (constrain a y).mulVec := by
    rw [hcon, hCy]
    intro u v h
    have hz : y.mulVec (u - v) = 0 := by rw [Matrix.mulVec_sub, h, sub_self]
    by_contra hne
    apply hy
    have h0 : (u - v) 0 ≠ 0 := fun h0 => hne (by funext i; rw [Subsingleton.elim i 0]; exact sub_eq_zero.1 h0)
    ext n j
    rw [Subsingleton.elim j 0]
    have := congrFun hz n
    simp only [Matrix.mulVec, dotProduct, Fin.sum_univ_one, Pi.zero_apply] at this
    exact (mul_eq_zero.1 this).resolve_right h0
  obtain ⟨s, hi, -⟩ := C81_ends_partial g he hn y work hinj (le_refl _)
  obtain ⟨I, -, ⟨T, hT, hV⟩, hb, -⟩ := initial_spec g he hn hi
  suffices hh : ∀ w, RitzOK a e g.hp s w → expand a e s w ≠ none by
    obtain ⟨sol, h1, -⟩ := returns_second g he hn ht hi hh
    exact ⟨sol, h1⟩
  intro w R hx
  obtain ⟨n, hd, hn'⟩ := expand_none g he R hx
  have hm : (s.ibasis + 1) % nbasis a = 1 := by
    rw [hb]; exact Nat.mod_eq_of_lt (by unfold nbasis; omega)
  rw [hm] at hd hn'
  simp only [one_ne_zero, if_false] at hd hn'
  subst hn'
  obtain ⟨c, c1, B, hB⟩ := hd
  rw [Finset.sum_range_one] at hB
  obtain ⟨L, hL⟩ := first_block R hb
  have hsm : ∀ (Z : M N 1) (S : Sq 1), Z * S = S 0 0 • Z := by
    intro Z S
    ext n j
    rw [Subsingleton.elim j 0]
    simp [Matrix.mul_apply, mul_comm]
  rw [hcon, hCy, hsm] at hV
  rw [hV, hsm, smul_smul] at hL
  generalize hk : L 0 0 * T 0 0 = k at hL
  have hYY : (w.Y)ᴴ * w.Y = 1 := by have := R.basis.orthonormal; rwa [Matrix.mul_one] at this
  have hk0 : k ≠ 0 := by
    rintro rfl
    rw [hL, zero_smul, Matrix.mul_zero] at hYY
    exact zero_ne_one (congrFun (congrFun hYY 0) 0)
  have hc0 : c 0 ≠ 0 := fun h => c1 (by funext i; rw [Subsingleton.elim i 0]; exact h)
  have hnd : newDirection a w.Y w.vals = k • (a.A * y) - (k * (w.vals 0 : ℂ)) • y := by
    unfold newDirection applyK residual
    rw [hK]
    simp only
    rw [hcon, hsm, hL, Matrix.mul_smul, Matrix.mul_sub, Matrix.mul_smul, hCA, Matrix.mul_smul, Matrix.mul_smul, hCy, smul_smul, diagonal_apply_eq, mul_comm k]
  rw [hnd, hV] at hB
  apply hind (((c 0) * k)⁻¹ * (T 0 0 * B 0 0 + c 0 * (k * (w.vals 0 : ℂ))))
  ext n j
  rw [Subsingleton.elim j 0]
  have := congrFun hB n
  simp [Matrix.mulVec, dotProduct] at this
  simp only [Matrix.smul_apply, smul_eq_mul]
  field_simp
  linear_combination this

end Mpb.Davidson

namespace Mpb.Kpoint

open Matrix Mpb.Solver Mpb.Eig Spec
open scoped ComplexOrder

variable {N : ℕ}

open Classical in
/-- A LAPACK that keeps its contracts, as the block eigensolver sees it. -/
noncomputable def exactEig (p : ℕ) : Eig.Env N p where
  inv := fun S => if S.PosDef then some S⁻¹ else none
  invGen := fun _ => none
  sqrtm := fun S => if h : ∃ R : Sq p, R.IsHermitian ∧ R * R = S then h.choose else 0
  heev := fun S => if h : S.IsHermitian then ((Davidson.spectral S h).choose, (Davidson.spectral S h).choose_spec.choose) else (S, fun _ => 0)
  rnd := fun _ => 0
  junk := fun _ _ => 0
  tExact := fun _ => 0
  tApprox := fun _ => 0
  evals := 0
  work := ⟨fun _ => 0, fun _ => 0⟩

theorem exactEig_ok (p : ℕ) : Eig.EnvOK (exactEig p : Eig.Env N p) := by
  refine ⟨fun S _ => ⟨fun h => if_pos h, fun h => if_neg h⟩, fun S hS => ?_, fun S h => ?_⟩
  · have h := Davidson.exists_sqrt S hS
    have e : (exactEig p : Eig.Env N p).sqrtm S = h.choose := dif_pos h
    rw [e]
    exact h.choose_spec
  · have e : (exactEig p : Eig.Env N p).heev S = ((Davidson.spectral S h).choose, (Davidson.spectral S h).choose_spec.choose) := dif_pos h
    rw [e]
    exact (Davidson.spectral S h).choose_spec.choose_spec

/-- The outside world of the examples. -/
noncomputable def exactOutside : Outside N where
  eig := fun _ p => exactEig p
  dav := fun _ _ => Davidson.exactEnv
  work := fun _ _ _ => 0
  noInv := fun _ _ => 0
  fuel := 100000

theorem exactOutside_ok : OutsideOK (exactOutside : Outside N) := ⟨fun _ p => exactEig_ok p, fun _ _ => Davidson.exactEnv_ok⟩

/-- The operator diag(5, 6, 1, 2), the Davidson eigensolver, a coarse tolerance. -/
noncomputable def coarse : Problem 4 where
  A := diagonal ![5, 6, 1, 2]
  B := none
  parity := 1
  zeroK := none
  target := none
  davidson := true
  K := fun _ X _ _ => X
  dK := fun _ X _ _ => X
  nWork := 4
  tol := 3
  fl := ⟨false, false, false, false, false, false, false, false⟩
  scratch := false
  consts := fun _ => []
  negativeOK := false

theorem coarse_good : Good coarse where
  hA := by
    show (diagonal ![5, 6, 1, 2] : Matrix (Fin 4) (Fin 4) ℂ)ᴴ = _
    rw [diagonal_conjTranspose]
    congr 1
    funext i
    fin_cases i <;> simp
  hB := fun B h => by cases h
  parHerm := Matrix.isHermitian_one
  parIdem := Matrix.mul_one _
  zk := fun Z h => by cases h
  tol := by norm_num [coarse]
  proj := fun h => by cases h

theorem coarse_posDef : coarse.A.PosDef := by
  show (diagonal ![5, 6, 1, 2] : Matrix (Fin 4) (Fin 4) ℂ).PosDef
  rw [Matrix.posDef_diagonal_iff]
  intro i
  fin_cases i <;> simp

/-- Fields on the plane waves where `s` is 1. -/
def on (s : Fin 4 → ℂ) : Matrix (Fin 4) (Fin 4) ℂ := diagonal s

theorem coarse_block {solved : List (Vec 4)} {s : Fin 4 → ℂ} (hs : ∀ i, s i * s i = s i) (h1 : ∀ x ∈ solved, ip 1 x x = 1)
    (h2 : solved.Pairwise fun x y => ip 1 x y = 0) (h3 : ∀ x ∈ solved, (on s).mulVec x = 0) {y : Vec 4} (hy : (on s).mulVec y = y) (hy0 : y ≠ 0)
    (hne : ∀ k : ℂ, coarse.A.mulVec y ≠ k • y) (ib : ℕ) :
    ∃ x v, solveBlock coarse exactOutside ib solved [y] = some ([x], [v]) ∧ (on s).mulVec x = x := by
  have hBm : coarse.Bm = 1 := rfl
  have hbase : base coarse = 1 := by rw [base_eq]; rfl
  have hidem : on s * on s = on s := by unfold on; rw [diagonal_mul_diagonal]; congr 1; funext i; exact hs i
  have hz : on s * bundle solved = 0 := by
    ext i j
    exact congrFun (h3 (solved.get j) (List.get_mem _ _)) i
  have hsr : ∀ i, star (s i) = s i := by
    intro i
    rcases mul_eq_zero.1 (show s i * (s i - 1) = 0 by rw [mul_sub, hs, mul_one, sub_self]) with h | h
    · rw [h]; simp
    · rw [sub_eq_zero.1 h]; simp
  have hsH : (on s)ᴴ = on s := by
    unfold on
    rw [diagonal_conjTranspose]
    congr 1
    funext i
    exact hsr i
  have hz' : (bundle solved)ᴴ * on s = 0 := by
    have := congrArg conjTranspose hz
    rwa [conjTranspose_mul, hsH, conjTranspose_zero] at this
  obtain ⟨c1, c2⟩ := chain_spec coarse_good (solved := solved) h1 h2 (fun x _ => by rw [hbase, Matrix.one_mulVec])
    (Or.inl fun B h => by cases h)
  have hfix : ∀ {p : ℕ} (Z : M 4 p), on s * Z = Z → chain (constraints coarse solved) * Z = Z := by
    intro p Z hZ
    rw [c2, hbase, Matrix.one_mul]
    refine ⟨rfl, ?_⟩
    rw [hBm, Matrix.mul_one, ← hZ, ← Matrix.mul_assoc, hz', Matrix.zero_mul]
  have hcomm : on s * chain (constraints coarse solved) = chain (constraints coarse solved) * on s := by
    rw [hfix (on s) hidem, chain_eq, hbase]
    split_ifs
    · rw [Matrix.mul_one]
    · unfold deflator
      rw [Matrix.one_mul, Matrix.mul_sub, ← Matrix.mul_assoc, hz, Matrix.zero_mul, sub_zero, Matrix.mul_one]
  have hA : on s * coarse.A = coarse.A * on s := by
    show on s * diagonal ![5, 6, 1, 2] = diagonal ![5, 6, 1, 2] * on s
    unfold on
    rw [diagonal_mul_diagonal, diagonal_mul_diagonal]
    congr 1
    funext i
    exact mul_comm _ _
  set Y : M 4 1 := bundle [y] with hYd
  have hcol : ∀ (T : Matrix (Fin 4) (Fin 4) ℂ) i, (T * Y) i 0 = T.mulVec y i := fun _ _ => rfl
  have hY : on s * Y = Y := by
    ext i j
    rw [Subsingleton.elim j 0, hcol, hy]
    rfl
  set a : Davidson.Args 4 1 := ⟨coarse.A, some (coarse.dK 1), some (chain (constraints coarse solved)), 4, 3, 0⟩ with ha
  have g : Davidson.Good a := ⟨Nat.one_pos, coarse_good.hA, fun C h => by cases h; exact c1⟩
  obtain ⟨sol, hsol⟩ := Davidson.one_returns (a := a) (e := Davidson.exactEnv) (y := Y) (C := chain (constraints coarse solved)) g
    Davidson.exactEnv_ok (le_refl 4) (by norm_num [ha]) rfl rfl (hfix Y hY)
    (hfix _ (by rw [← Matrix.mul_assoc, show on s * a.A = a.A * on s from hA, Matrix.mul_assoc, hY]))
    (fun h => hy0 (by funext i; exact congrFun (congrFun h i) 0))
    (fun k h => hne k (by funext i; exact congrFun (congrFun h i) 0)) (fun _ => 0)
  have hQ := Davidson.davidson_sector g Davidson.exactEnv_ok (Q := on s)
    ⟨hidem, hA, fun C h => by cases h; exact hcomm, fun K h X Z v hX hZ => by cases h; exact hX⟩ hY hsol
  refine ⟨fun n => sol.Y n 0, sol.vals 0, ?_, ?_⟩
  · have hb : solveBundle coarse exactOutside (chain (constraints coarse solved)) ib (bundle [y]) = some (sol.Y, sol.vals) := by
      show (Davidson.davidson a Davidson.exactEnv 100000 Y (fun _ => 0)).map _ = _
      rw [hsol]
      rfl
    unfold solveBlock
    rw [hb]
    simp only [Option.map_some]
    congr 2
  · funext i
    exact congrFun (congrFun hQ i) 0

theorem ip_on {d : Fin 4 → ℝ} {x : Vec 4} {v : ℝ} (h : ip (diagonal fun i => (d i : ℂ)) x x = (v : ℂ)) : ∑ i, d i * Complex.normSq (x i) = v := by
  apply Complex.ofReal_injective
  rw [← h, ip, dotProduct, Complex.ofReal_sum]
  refine Finset.sum_congr rfl fun i _ => ?_
  rw [mulVec_diagonal, Complex.ofReal_mul, Complex.normSq_eq_conj_mul_self]
  simp only [Pi.star_apply, RCLike.star_def]
  ring

theorem coarse_bands {x : Vec 4} {v : ℝ} (h : Bands coarse.A coarse.Bm [x] [v]) :
    5 * Complex.normSq (x 0) + 6 * Complex.normSq (x 1) + Complex.normSq (x 2) + 2 * Complex.normSq (x 3) = v ∧
      Complex.normSq (x 0) + Complex.normSq (x 1) + Complex.normSq (x 2) + Complex.normSq (x 3) = 1 := by
  have h1 := h.normalised x (by simp)
  have h2 := (List.forall₂_cons.1 h.quotient).1
  have e1 : (coarse.Bm : Matrix (Fin 4) (Fin 4) ℂ) = diagonal fun i => (((fun _ => 1) : Fin 4 → ℝ) i : ℂ) := by
    show (1 : Matrix (Fin 4) (Fin 4) ℂ) = _
    simp
  have e2 : coarse.A = diagonal fun i => ((![5, 6, 1, 2] : Fin 4 → ℝ) i : ℂ) := by
    show diagonal _ = _
    congr 1
    funext i
    fin_cases i <;> simp
  rw [e1] at h1
  rw [e2] at h2
  have g1 := ip_on (v := 1) (by rw [h1]; simp)
  have g2 := ip_on h2
  simp [Fin.sum_univ_four] at g1 g2
  exact ⟨g2, g1⟩

/-- A run of `solve_kpoint` with two blocks of one band: the first eigenvalue is at least 5, the second at most 2. -/
theorem coarse_run : ∃ x₁ x₂ v₁ v₂, solveKpoint coarse exactOutside 1 one_pos [![1, 1, 0, 0], ![0, 0, 1, 1]] = some ([x₁, x₂], [v₁, v₂]) ∧ 5 ≤ v₁ ∧ v₂ ≤ 2 := by
  have hne : ∀ {y : Vec 4} {i j : Fin 4}, y i = 1 → y j = 1 → (![5, 6, 1, 2] : Fin 4 → ℂ) i ≠ (![5, 6, 1, 2] : Fin 4 → ℂ) j →
      ∀ k : ℂ, coarse.A.mulVec y ≠ k • y := by
    intro y i j hi hj hd k h
    have h1 := congrFun h i
    have h2 := congrFun h j
    have hA : ∀ n, coarse.A.mulVec y n = (![5, 6, 1, 2] : Fin 4 → ℂ) n * y n := fun n => mulVec_diagonal _ _ n
    rw [hA, Pi.smul_apply, hi, smul_eq_mul, mul_one, mul_one] at h1
    rw [hA, Pi.smul_apply, hj, smul_eq_mul, mul_one, mul_one] at h2
    exact hd (h1.trans h2.symm)
  obtain ⟨x₁, v₁, r1, q1⟩ := coarse_block (solved := []) (s := ![1, 1, 0, 0]) (y := ![1, 1, 0, 0]) (by intro i; fin_cases i <;> simp) (by simp) (by simp)
    (by simp) (by funext i; fin_cases i <;> simp [on, mulVec_diagonal]) (fun h => by simpa using congrFun h 0)
    (hne (i := 0) (j := 1) rfl rfl (by norm_num)) 0
  obtain ⟨b1, -⟩ := solveBlock_spec coarse_good exactOutside_ok (by simp) (by simp) (by simp) (by simp) (Or.inr rfl) r1
  obtain ⟨e1, n1⟩ := coarse_bands b1
  have hz2 : x₁ 2 = 0 := by simpa [on, mulVec_diagonal] using (congrFun q1 2).symm
  have hz3 : x₁ 3 = 0 := by simpa [on, mulVec_diagonal] using (congrFun q1 3).symm
  obtain ⟨x₂, v₂, r2, q2⟩ := coarse_block (solved := [x₁]) (s := ![0, 0, 1, 1]) (y := ![0, 0, 1, 1]) (by intro i; fin_cases i <;> simp)
    (fun x hx => b1.normalised x hx) (by simp)
    (by
      intro x hx
      rw [List.mem_singleton.1 hx]
      funext i
      fin_cases i <;> simp [on, mulVec_diagonal, hz2, hz3])
    (by funext i; fin_cases i <;> simp [on, mulVec_diagonal]) (fun h => by simpa using congrFun h 2)
    (hne (i := 2) (j := 3) rfl rfl (by show (1 : ℂ) ≠ 2; norm_num)) 1
  obtain ⟨b2, -⟩ := solveBlock_spec coarse_good exactOutside_ok (by simp) (fun x hx => b1.normalised x hx) (by simp)
    (fun x _ => by rw [show base coarse = 1 from by rw [base_eq]; rfl, Matrix.one_mulVec]) (Or.inl fun B h => by cases h) r2
  obtain ⟨e2, n2⟩ := coarse_bands b2
  have hy0 : x₂ 0 = 0 := by simpa [on, mulVec_diagonal] using (congrFun q2 0).symm
  have hy1 : x₂ 1 = 0 := by simpa [on, mulVec_diagonal] using (congrFun q2 1).symm
  refine ⟨x₁, x₂, v₁, v₂, ?_, ?_, ?_⟩
  · have hc : constBands coarse 2 = [] := by unfold constBands; split_ifs <;> rfl
    unfold solveKpoint
    simp only [List.length_cons, List.length_nil, Nat.zero_add, Nat.reduceAdd, hc, List.drop_zero]
    rw [solveBlocks, dif_neg (by simp)]
    simp only [List.take_succ_cons, List.take_zero, r1, Option.bind_some]
    rw [solveBlocks, dif_neg (by simp)]
    simp only [List.drop_succ_cons, List.drop_zero, List.take_succ_cons, List.take_zero, List.nil_append, Nat.zero_add, r2, Option.bind_some]
    rw [solveBlocks, dif_pos (by simp)]
    simp
  · rw [hz2, hz3] at e1 n1
    simp at e1 n1
    have := Complex.normSq_nonneg (x₁ 1)
    linarith
  · rw [hy0, hy1] at e2 n2
    simp at e2 n2
    have := Complex.normSq_nonneg (x₂ 2)
    linarith

/-- C93: the reported frequencies of a k-point need not increase, nor be close to the lowest ones.  Here the operator has eigenvalues 1, 2, 5
and 6, the block size is 1, and two bands are asked for; the first one reported is the lowest of the fields that its start reaches, the
second one lies below it. -/
theorem C93_sorted_refuted : ∃ (pb : Problem 4) (o : Outside 4) (start cols : List (Vec 4)) (x y : ℝ), Good pb ∧ OutsideOK o ∧ pb.A.PosDef ∧ pb.B = none ∧
    pb.negativeOK = false ∧ (∃ vals, solveKpoint pb o 1 one_pos start = some (cols, vals) ∧ freqs pb vals = [x, y]) ∧ y < x := by
  obtain ⟨x₁, x₂, v₁, v₂, h, h1, h2⟩ := coarse_run
  refine ⟨coarse, exactOutside, _, _, Real.sqrt v₁, Real.sqrt v₂, coarse_good, exactOutside_ok, coarse_posDef, rfl, rfl, ⟨_, h, rfl⟩, ?_⟩
  exact Real.sqrt_lt_sqrt_iff_of_pos (by linarith) |>.2 (by linarith)

/-- The hypotheses of `C93_result`, `C93_all_bands` and the bounds are met: that run. -/
example : ∃ cols vals, solveKpoint coarse exactOutside 1 one_pos [![1, 1, 0, 0], ![0, 0, 1, 1]] = some (cols, vals) ∧ Bands coarse.A 1 cols vals ∧
    cols.length = 2 := by
  obtain ⟨x₁, x₂, v₁, v₂, h, -⟩ := coarse_run
  refine ⟨_, _, h, (C93_all_bands coarse_good rfl ?_ exactOutside_ok h).1, rfl⟩
  constructor <;> simp [coarse]

/-! ## k = 0 with a permeability -/

/-- Two plane waves, the first one constant; an inverse permeability that couples them. -/
noncomputable def coupled : Problem 2 where
  A := diagonal ![0, 1]
  B := some !![2, 1; 1, 1]
  parity := 1
  zeroK := some (diagonal ![0, 1])
  target := none
  davidson := false
  K := fun _ X _ _ => X
  dK := fun _ X _ _ => X
  nWork := 4
  tol := 3
  fl := defaultFlags
  scratch := false
  consts := fun _ => []
  negativeOK := false

theorem coupled_good : Good coupled where
  hA := by
    show (diagonal ![0, 1] : Matrix (Fin 2) (Fin 2) ℂ)ᴴ = _
    rw [diagonal_conjTranspose]
    congr 1
    funext i
    fin_cases i <;> simp
  hB := by
    intro B h
    cases h
    refine Matrix.PosDef.of_dotProduct_mulVec_pos ?_ fun x hx => ?_
    · ext i j
      fin_cases i <;> fin_cases j <;> simp
    · have e : star x ⬝ᵥ (!![2, 1; 1, 1] : Matrix (Fin 2) (Fin 2) ℂ).mulVec x = ((Complex.normSq (x 0) + Complex.normSq (x 0 + x 1) : ℝ) : ℂ) := by
        rw [Complex.ofReal_add, Complex.normSq_eq_conj_mul_self, Complex.normSq_eq_conj_mul_self]
        simp [Matrix.mulVec, dotProduct, Fin.sum_univ_two]
        ring
      rw [e]
      have h0 := Complex.normSq_nonneg (x 0)
      have h1 := Complex.normSq_nonneg (x 0 + x 1)
      norm_cast
      by_contra hn
      have z0 : x 0 = 0 := Complex.normSq_eq_zero.1 (by linarith)
      have z1 : x 0 + x 1 = 0 := Complex.normSq_eq_zero.1 (by linarith)
      rw [z0, zero_add] at z1
      exact hx (by funext i; fin_cases i <;> assumption)
  parHerm := Matrix.isHermitian_one
  parIdem := Matrix.mul_one _
  zk := by
    intro Z h
    cases h
    refine ⟨?_, ?_, ?_⟩
    · ext i j
      fin_cases i <;> fin_cases j <;> simp
    · ext i j
      fin_cases i <;> fin_cases j <;> simp
    · show _ * (1 : Matrix (Fin 2) (Fin 2) ℂ) = 1 * _
      rw [Matrix.mul_one, Matrix.one_mul]
  tol := by norm_num [coupled]
  proj := fun h => by cases h

/-- C93: at k = 0 with a permeability, the constraints of the second block do not make a field orthogonal to the bands of the first one.
Here they turn the field (1, 0) into a multiple of the band that has been found already. -/
theorem C93_zero_k_mu_refuted : ∃ (pb : Problem 2) (Y x : Vec 2) (c : ℂ), Good pb ∧ pb.B.isSome ∧ pb.zeroK.isSome ∧ ip pb.Bm Y Y = 1 ∧
    (∀ Z, pb.zeroK = some Z → Z.mulVec Y = Y) ∧ pb.parity.mulVec Y = Y ∧ (chain (constraints pb [Y])).mulVec x = c • Y ∧ c ≠ 0 ∧
    ip pb.Bm Y ((chain (constraints pb [Y])).mulVec x) ≠ 0 := by
  have hn : ip coupled.Bm ![0, 1] ![0, 1] = 1 := by
    show ip (!![2, 1; 1, 1] : Matrix (Fin 2) (Fin 2) ℂ) _ _ = _
    simp [ip, Matrix.mulVec, dotProduct, Fin.sum_univ_two]
  have hx : (chain (constraints coupled [![0, 1]])).mulVec ![1, 0] = (-1 : ℂ) • ![0, 1] := by
    rw [chain_eq, if_neg (by simp), base_eq]
    show ((1 : Matrix (Fin 2) (Fin 2) ℂ) * diagonal ![0, 1] * (1 - bundle [![0, 1]] * ((!![2, 1; 1, 1] : Matrix (Fin 2) (Fin 2) ℂ) * bundle [![0, 1]])ᴴ)).mulVec _ = _
    rw [Matrix.one_mul]
    funext i
    fin_cases i <;> simp [Matrix.mulVec, dotProduct, Fin.sum_univ_two, Matrix.mul_apply, Matrix.vecMul, bundle, diagonal]
  refine ⟨coupled, ![0, 1], ![1, 0], -1, coupled_good, rfl, rfl, hn, ?_, ?_, hx, by norm_num, ?_⟩
  · intro Z h
    cases h
    funext i
    fin_cases i <;> simp [mulVec_diagonal]
  · exact Matrix.one_mulVec _
  · rw [hx, ip, Matrix.mulVec_smul, dotProduct_smul]
    rw [ip] at hn
    rw [hn]
    norm_num

end Mpb.Kpoint

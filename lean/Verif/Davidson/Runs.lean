import Verif.Davidson.Props
import Verif.Eig.Runs
import Mathlib.Analysis.Matrix.Spectrum
import Mathlib.Analysis.Matrix.Order
import Mathlib.Data.Fin.Tuple.Sort

/-!
# Which runs of the Davidson eigensolver return: C81
-/

namespace Mpb.Davidson

open Matrix Mpb.Solver Mpb.Eig

open scoped ComplexOrder

variable {N p m : ℕ}

/-! ## LAPACK exists -/

theorem spectral {q : ℕ} (S : Matrix (Fin q) (Fin q) ℂ) (h : S.IsHermitian) :
    ∃ (U : Matrix (Fin q) (Fin q) ℂ) (ev : Fin q → ℝ), U * Uᴴ = 1 ∧ Uᴴ * U = 1 ∧ S = Uᴴ * diagonal (fun i => ((ev i : ℝ) : ℂ)) * U ∧
      ∀ i j, i ≤ j → ev i ≤ ev j := by
  set E : Matrix (Fin q) (Fin q) ℂ := h.eigenvectorUnitary.1 with hE
  have hE1 : Eᴴ * E = 1 := by
    have := (Matrix.mem_unitaryGroup_iff' (A := E)).1 h.eigenvectorUnitary.2
    rwa [star_eq_conjTranspose] at this
  have hE2 : E * Eᴴ = 1 := by
    have := (Matrix.mem_unitaryGroup_iff (A := E)).1 h.eigenvectorUnitary.2
    rwa [star_eq_conjTranspose] at this
  have hS : S = E * diagonal (fun i => ((h.eigenvalues i : ℝ) : ℂ)) * Eᴴ := by
    have := h.spectral_theorem
    rw [Unitary.conjStarAlgAut_apply] at this
    rw [← star_eq_conjTranspose]
    exact this
  set σ := Tuple.sort h.eigenvalues with hσ
  refine ⟨(E.submatrix id σ)ᴴ, fun i => h.eigenvalues (σ i), ?_, ?_, ?_, fun i j hij => Tuple.monotone_sort h.eigenvalues hij⟩
  · rw [conjTranspose_conjTranspose]
    have : (E.submatrix id σ)ᴴ * E.submatrix id σ = (Eᴴ * E).submatrix σ σ := rfl
    rw [this, hE1]
    exact Matrix.submatrix_one_equiv σ
  · rw [conjTranspose_conjTranspose, conjTranspose_submatrix, Matrix.submatrix_mul_equiv E Eᴴ id σ id, hE2]
    rfl
  · rw [conjTranspose_conjTranspose, conjTranspose_submatrix]
    have : diagonal (fun i => ((h.eigenvalues (σ i) : ℝ) : ℂ)) = (diagonal (fun i => ((h.eigenvalues i : ℝ) : ℂ))).submatrix σ σ := by
      ext i j
      simp only [Matrix.submatrix_apply, Matrix.diagonal_apply, EmbeddingLike.apply_eq_iff_eq]
    rw [this, Matrix.submatrix_mul_equiv, Matrix.submatrix_mul_equiv, ← hS]
    rfl

open Classical in
/-- A LAPACK that keeps its contracts. -/
noncomputable def exactEnv : Env N p where
  inv := fun S => if S.PosDef then some S⁻¹ else none
  sqrtm := fun S => if h : ∃ R : Sq p, R.IsHermitian ∧ R * R = S then h.choose else 0
  heev := fun q d => if h : (mat q d).IsHermitian then
      (fun n => if hn : n / q < q ∧ n % q < q then (spectral _ h).choose ⟨n / q, hn.1⟩ ⟨n % q, hn.2⟩ else 0,
        fun n => if hn : n < q then (spectral _ h).choose_spec.choose ⟨n, hn⟩ else 0)
    else (d, fun _ => 0)
  junkY := fun _ => 0
  junk := fun _ _ => 0

open scoped MatrixOrder in
theorem exists_sqrt (S : Sq p) (h : S.PosDef) : ∃ R : Sq p, R.IsHermitian ∧ R * R = S := by
  obtain ⟨U, ev, h1, h2, h3, -⟩ := spectral S h.isHermitian
  have hev : ∀ i, 0 ≤ ev i := by
    intro i
    have hd : U * S * Uᴴ = diagonal (fun i => ((ev i : ℝ) : ℂ)) := by
      conv_lhs => rw [h3]
      rw [show U * (Uᴴ * diagonal (fun i => ((ev i : ℝ) : ℂ)) * U) * Uᴴ = (U * Uᴴ) * diagonal (fun i => ((ev i : ℝ) : ℂ)) * (U * Uᴴ) by
        simp only [Matrix.mul_assoc], h1, Matrix.one_mul, Matrix.mul_one]
    have hps := h.posSemidef.mul_mul_conjTranspose_same U
    rw [hd] at hps
    have := hps.diag_nonneg (i := i)
    rw [diagonal_apply_eq] at this
    exact Complex.zero_le_real.1 this
  refine ⟨Uᴴ * diagonal (fun i => ((Real.sqrt (ev i) : ℝ) : ℂ)) * U, ?_, ?_⟩
  · unfold Matrix.IsHermitian
    rw [conjTranspose_mul, conjTranspose_mul, conjTranspose_conjTranspose, diagonal_conjTranspose, Matrix.mul_assoc]
    congr 2
    congr 1
    funext i
    simp
  · rw [show Uᴴ * diagonal (fun i => ((Real.sqrt (ev i) : ℝ) : ℂ)) * U * (Uᴴ * diagonal (fun i => ((Real.sqrt (ev i) : ℝ) : ℂ)) * U) =
      Uᴴ * (diagonal (fun i => ((Real.sqrt (ev i) : ℝ) : ℂ)) * (U * Uᴴ) * diagonal (fun i => ((Real.sqrt (ev i) : ℝ) : ℂ))) * U by
        simp only [Matrix.mul_assoc], h1, Matrix.mul_one, diagonal_mul_diagonal]
    conv_rhs => rw [h3]
    congr 3
    funext i
    rw [← Complex.ofReal_mul, Real.mul_self_sqrt (hev i)]

theorem exactEnv_ok : EnvOK (exactEnv : Env N p) := by
  refine ⟨fun S _ => ⟨fun h => if_pos h, fun h => if_neg h⟩, fun S hS => ?_, fun q d h => ?_⟩
  · have h := exists_sqrt S hS
    have e : (exactEnv : Env N p).sqrtm S = h.choose := dif_pos h
    rw [e]
    exact h.choose_spec
  · have e : (exactEnv : Env N p).heev q d = (fun n => if hn : n / q < q ∧ n % q < q then (spectral _ h).choose ⟨n / q, hn.1⟩ ⟨n % q, hn.2⟩ else 0,
        fun n => if hn : n < q then (spectral _ h).choose_spec.choose ⟨n, hn⟩ else 0) := dif_pos h
    rw [e]
    have hm : mat q (fun n => if hn : n / q < q ∧ n % q < q then (spectral _ h).choose ⟨n / q, hn.1⟩ ⟨n % q, hn.2⟩ else 0) = (spectral _ h).choose := by
      rcases Nat.eq_zero_or_pos q with rfl | hq
      · ext i; exact i.elim0
      · exact mat_flat hq (spectral _ h).choose
    simp only [hm]
    obtain ⟨s1, s2, s3, s4⟩ := (spectral _ h).choose_spec.choose_spec
    refine ⟨s1, s2, ?_, ?_⟩
    · have : (fun i : Fin q => (((if hn : (i : ℕ) < q then (spectral _ h).choose_spec.choose ⟨i, hn⟩ else 0 : ℝ)) : ℂ)) =
          fun i => (((spectral _ h).choose_spec.choose i : ℝ) : ℂ) := by
        funext i; rw [dif_pos i.2]
      rw [this]
      exact s3
    · intro i j hij hj
      rw [dif_pos (show i < q by omega), dif_pos hj]
      exact s4 _ _ hij

/-! ## The end of a run -/

theorem loop_fuel {a : Args N p} {e : Env N p} (g : Good a) (he : EnvOK e) (hn : 4 ≤ a.nWork) :
    ∀ (f : ℕ) (s : St N p) (log : List (Fin p → ℝ)), Inv a g.hp s → s.iter < maxIterations → maxIterations ≤ s.iter + f →
      loop a e f s log ≠ .outOfFuel := by
  intro f
  induction f with
  | zero => intro s log _ h1 h2; omega
  | succ f ih =>
    intro s log I h1 h2
    obtain ⟨w, hw, R⟩ := ritz_spec (e := e) g he I
    simp only [loop, hw]
    by_cases hc : Converged a.tol s.iter (energy w.vals) s.prevE
    · rw [if_pos hc]; exact fun h => by cases h
    · rw [if_neg hc]
      cases hx : expand a e s w with
      | none => exact fun h => by cases h
      | some s1 =>
        obtain ⟨i1, -, -, i4, -⟩ := expand_spec g he hn I R hx
        simp only
        by_cases hlt : s1.iter < maxIterations
        · rw [if_pos hlt]; exact ih s1 _ i1 hlt (by omega)
        · rw [if_neg hlt]; exact fun h => by cases h

/-- A combination of the columns of `W` lies in the span of the first `n` blocks of `V`. -/
def Dependent (W : M N p) (V : ℕ → M N p) (n : ℕ) : Prop :=
  ∃ c : Fin p → ℂ, c ≠ 0 ∧ ∃ B : ℕ → Fin p → ℂ, W.mulVec c = ∑ i ∈ Finset.range n, (V i).mulVec (B i)

theorem orthogonalize_dependent (V : ℕ → M N p) (W : M N p) (c : Fin p → ℂ) :
    ∀ n, ∃ B : ℕ → Fin p → ℂ, (orthogonalize V n W).mulVec c = W.mulVec c - ∑ i ∈ Finset.range n, (V i).mulVec (B i) := by
  intro n
  induction n with
  | zero => exact ⟨fun _ => 0, by simp [orthogonalize]⟩
  | succ n ih =>
    obtain ⟨B, hB⟩ := ih
    refine ⟨fun i => if i = n then ((V n)ᴴ * orthogonalize V n W).mulVec c else B i, ?_⟩
    simp only [orthogonalize]
    rw [Matrix.sub_mulVec, hB, Finset.sum_range_succ, if_pos rfl, ← Matrix.mulVec_mulVec, sub_sub]
    congr 2
    refine Finset.sum_congr rfl (fun i hi => ?_)
    rw [if_neg (by have := Finset.mem_range.1 hi; omega)]

theorem not_injective {W : M N p} (h : ¬ Function.Injective W.mulVec) : ∃ c, c ≠ 0 ∧ W.mulVec c = 0 := by
  by_contra hn
  push Not at hn
  apply h
  intro u v huv
  by_contra hne
  exact hn (u - v) (sub_ne_zero.2 hne) (by rw [Matrix.mulVec_sub, huv, sub_self])

theorem orthonormalize_none {e : Env N p} (he : EnvOK e) {W : M N p} (hW : orthonormalize e W = none) : ∃ c, c ≠ 0 ∧ W.mulVec c = 0 := by
  refine not_injective (fun hi => ?_)
  unfold orthonormalize at hW
  rw [Option.map_eq_none_iff] at hW
  have hpd : (Wᴴ * W).PosDef := by
    have := moved_posDef (B := (1 : Matrix (Fin N) (Fin N) ℂ)) Matrix.PosDef.one hi
    rwa [Matrix.mul_one] at this
  rw [(he.inv _ hpd.isHermitian).1 hpd] at hW
  cases hW

/-- The preconditioned and constrained residual of a block. -/
def newDirection (a : Args N p) (Y : M N p) (vals : Fin p → ℝ) : M N p := constrain a (applyK a (residual (a.A * Y) Y vals) Y vals)

theorem expand_none {a : Args N p} {e : Env N p} (g : Good a) (he : EnvOK e) {s : St N p} {w : Ritz N p}
    (R : RitzOK a e g.hp s w) (h : expand a e s w = none) :
    ∃ n, Dependent (newDirection a w.Y w.vals) (if (s.ibasis + 1) % nbasis a = 0 then fun _ => w.Y else s.V) n ∧
      n = if (s.ibasis + 1) % nbasis a = 0 then 1 else (s.ibasis + 1) % nbasis a := by
  have hp := g.hp
  set q := size p s.ibasis with hqd
  have hq : q = p * (s.ibasis + 1) := rfl
  unfold expand at h
  simp only at h
  rw [← hqd, combine_eq hp (Nat.succ_pos s.ibasis) R.itq hq] at h
  simp only [Option.bind_some] at h
  have hAY : stack hp w.AV q * (rows p q w.it w.S)ᴴ = a.A * w.Y := by
    rw [R.Y, ← Matrix.mul_assoc, mul_stack]
    congr 1
    exact stack_congr hp hq (fun i hi => R.AV i hi)
  rw [hAY, Option.map_eq_none_iff] at h
  obtain ⟨c, c1, c2⟩ := orthonormalize_none he h
  by_cases hr : (s.ibasis + 1) % nbasis a = 0
  · simp only [hr, decide_true, if_true] at c2 ⊢
    simp only [Function.update_self, ne_eq, one_ne_zero, not_false_eq_true, Function.update_of_ne, zero_ne_one] at c2
    refine ⟨1, ⟨c, c1, ?_⟩, rfl⟩
    obtain ⟨B, hB⟩ := orthogonalize_dependent (Function.update (Function.update (Function.update (Function.update s.V 0 (a.A * w.Y)) 0 w.Y) 1 (a.A * w.Y)) 1
      (residual (a.A * w.Y) w.Y w.vals)) (newDirection a w.Y w.vals) c 1
    refine ⟨B, ?_⟩
    rw [show orthogonalize _ 1 (newDirection a w.Y w.vals) = orthogonalize _ 1 _ from rfl] at hB
    have := hB.symm.trans c2
    rw [sub_eq_zero] at this
    rw [this]
    simp
  · simp only [hr, decide_false, Bool.false_eq_true, if_false] at c2 ⊢
    simp only [Function.update_self] at c2
    refine ⟨_, ⟨c, c1, ?_⟩, rfl⟩
    obtain ⟨B, hB⟩ := orthogonalize_dependent (Function.update (Function.update s.V ((s.ibasis + 1) % nbasis a) (a.A * w.Y)) ((s.ibasis + 1) % nbasis a)
      (residual (a.A * w.Y) w.Y w.vals)) (newDirection a w.Y w.vals) c ((s.ibasis + 1) % nbasis a)
    refine ⟨B, ?_⟩
    have := hB.symm.trans c2
    rw [sub_eq_zero] at this
    rw [this]
    refine Finset.sum_congr rfl (fun i hi => ?_)
    have hi' := Finset.mem_range.1 hi
    rw [Function.update_of_ne (by omega), Function.update_of_ne (by omega)]

theorem loop_fail {a : Args N p} {e : Env N p} (g : Good a) (he : EnvOK e) (hn : 4 ≤ a.nWork) :
    ∀ (f : ℕ) (s : St N p) (log : List (Fin p → ℝ)), Inv a g.hp s → loop a e f s log = .fail →
      ∃ (Y : M N p) (vals : Fin p → ℝ) (V : ℕ → M N p) (n : ℕ), Spec.RitzBasis a.A 1 Y vals ∧ Constrained a Y ∧ InSpan V n Y ∧
        (∀ i < n, ∀ j < n, (V i)ᴴ * V j = if i = j then 1 else 0) ∧ Dependent (newDirection a Y vals) V n := by
  intro f
  induction f with
  | zero => intro s log _ h; simp [loop] at h
  | succ f ih =>
    intro s log I h
    obtain ⟨w, hw, R⟩ := ritz_spec (e := e) g he I
    simp only [loop, hw] at h
    by_cases hc : Converged a.tol s.iter (energy w.vals) s.prevE
    · rw [if_pos hc] at h; cases h
    · rw [if_neg hc] at h
      cases hx : expand a e s w with
      | none =>
        obtain ⟨n, hd, hn'⟩ := expand_none g he R hx
        refine ⟨w.Y, w.vals, _, n, R.basis, R.constr, ?_, ?_, hd⟩
        · by_cases hr : (s.ibasis + 1) % nbasis a = 0
          · rw [if_pos hr] at hn'
            subst hn'
            rw [if_pos hr]
            exact ⟨fun _ => 1, by simp⟩
          · have hlt : s.ibasis + 1 < nbasis a := by
              rcases Nat.lt_or_ge (s.ibasis + 1) (nbasis a) with h | h
              · exact h
              · exfalso
                apply hr
                have := I.bound
                rw [show s.ibasis + 1 = nbasis a by omega, Nat.mod_self]
            rw [if_neg hr, Nat.mod_eq_of_lt hlt] at hn'
            subst hn'
            rw [if_neg hr]
            obtain ⟨Z', hc', hZ'⟩ := combine_spec g.hp R.itq rfl w.S s.V (e.junkY s.iter) (s.ibasis + 1) (le_refl _)
            have hc := combine_eq g.hp (Nat.succ_pos s.ibasis) R.itq rfl w.S s.V (e.junkY s.iter)
            rw [hc] at hc'
            exact ⟨_, by rw [R.Y, Option.some.inj hc', hZ' (by omega)]⟩
        · by_cases hr : (s.ibasis + 1) % nbasis a = 0
          · rw [if_pos hr] at hn'
            subst hn'
            simp only [if_pos hr]
            intro i hi j hj
            rw [if_pos (by omega)]
            have := R.basis.orthonormal
            rwa [Matrix.mul_one] at this
          · have hlt : s.ibasis + 1 < nbasis a := by
              rcases Nat.lt_or_ge (s.ibasis + 1) (nbasis a) with h | h
              · exact h
              · exfalso
                apply hr
                have := I.bound
                rw [show s.ibasis + 1 = nbasis a by omega, Nat.mod_self]
            rw [if_neg hr, Nat.mod_eq_of_lt hlt] at hn'
            subst hn'
            simp only [if_neg hr]
            exact I.orth
      | some s1 =>
        rw [hx] at h
        simp only at h
        obtain ⟨i1, -, -, i4, -⟩ := expand_spec g he hn I R hx
        by_cases hlt : s1.iter < maxIterations
        · rw [if_pos hlt] at h; exact ih s1 _ i1 h
        · rw [if_neg hlt] at h; cases h

/-- C81, the part that holds.  With enough work arrays and a block that is independent after the constraint was applied, a run ends within
100000 iterations, in one of three ways: it returns; or the limit is reached; or it stops in an iteration whose new direction (the
preconditioned and constrained residual of the current block) is not independent of an orthonormal basis that spans the block.  No other
check in the code can fail. -/
theorem C81_ends_partial {a : Args N p} {e : Env N p} (g : Good a) (he : EnvOK e) (hn : 4 ≤ a.nWork) (Y : M N p) (work : ℕ → M N p)
    (hY : Function.Injective (constrain a Y).mulVec) {fuel : ℕ} (hf : 100000 ≤ fuel) :
    ∃ s, initial a e Y work = some s ∧
      ((∃ sol, davidson a e fuel Y work = some sol) ∨ loop a e fuel s [] = .limit ∨
        ∃ (Y' : M N p) (vals : Fin p → ℝ) (V : ℕ → M N p) (n : ℕ), Spec.RitzBasis a.A 1 Y' vals ∧ (∀ C, a.C = some C → C * Y' = Y') ∧ InSpan V n Y' ∧
          (∀ i < n, ∀ j < n, (V i)ᴴ * V j = if i = j then 1 else 0) ∧ Dependent (newDirection a Y' vals) V n) := by
  cases hi : initial a e Y work with
  | none =>
    exfalso
    unfold initial at hi
    simp only at hi
    rw [Option.map_eq_none_iff] at hi
    obtain ⟨c, c1, c2⟩ := orthonormalize_none he hi
    exact c1 (hY (by rw [c2, Matrix.mulVec_zero]))
  | some s =>
    obtain ⟨I, hr, -, -, hit⟩ := initial_spec g he hn hi
    refine ⟨s, rfl, ?_⟩
    have h0 := loop_fuel (e := e) g he hn fuel s [] I (by rw [hit]; decide) (by rw [hit]; unfold maxIterations; omega)
    cases hl : loop a e fuel s [] with
    | outOfFuel => exact absurd hl h0
    | limit => exact Or.inr (Or.inl rfl)
    | fail => exact Or.inr (Or.inr (loop_fail g he hn fuel s [] I hl))
    | done s' log =>
      obtain ⟨v, v', l, -, r1, r2, -⟩ := loop_spec g he hn fuel s [] s' log I hr hl
      obtain ⟨Z, z1, -⟩ := finish_spec g he r1 r2
      refine Or.inl ⟨⟨Z, v, s'.iter, log.reverse⟩, ?_⟩
      unfold davidson
      rw [if_neg (by omega), hi]
      simp only [Option.bind_some, hl, z1, Option.map_some]

/-! ## Runs that abort -/

theorem loop_first {a : Args N p} {e : Env N p} (g : Good a) (he : EnvOK e) {s : St N p} (I : Inv a g.hp s) (h0 : s.iter = 0)
    (hx : ∀ w, RitzOK a e g.hp s w → expand a e s w = none) (f : ℕ) (log : List (Fin p → ℝ)) :
    loop a e f s log = .outOfFuel ∨ loop a e f s log = .fail := by
  cases f with
  | zero => exact Or.inl rfl
  | succ f =>
    obtain ⟨w, hw, R⟩ := ritz_spec (e := e) g he I
    right
    simp only [loop, hw]
    rw [if_neg (fun hc => by have := hc.1; omega), hx w R]

theorem davidson_first {a : Args N p} {e : Env N p} (g : Good a) (he : EnvOK e) (Y : M N p) (work : ℕ → M N p) (fuel : ℕ)
    (hx : ∀ s w, initial a e Y work = some s → RitzOK a e g.hp s w → expand a e s w = none) : davidson a e fuel Y work = none := by
  unfold davidson
  by_cases hn : a.nWork < 4
  · rw [if_pos hn]
  · rw [if_neg hn]
    cases hi : initial a e Y work with
    | none => rfl
    | some s =>
      obtain ⟨I, -, -, -, hit⟩ := initial_spec g he (by omega) hi
      simp only [Option.bind_some]
      rcases loop_first g he I hit (fun w R => hx s w hi R) fuel [] with h | h <;> rw [h]

theorem orthonormal_card {q : ℕ} {V : Matrix (Fin N) (Fin q) ℂ} (h : Vᴴ * V = 1) {C : Matrix (Fin N) (Fin N) ℂ} (hC : C * V = V) : q ≤ C.rank := by
  have h1 : (1 : Matrix (Fin q) (Fin q) ℂ).rank = q := by rw [Matrix.rank_one, Fintype.card_fin]
  calc q = (Vᴴ * V).rank := by rw [h, h1]
    _ ≤ V.rank := Matrix.rank_mul_le_right _ _
    _ = (C * V).rank := by rw [hC]
    _ ≤ C.rank := Matrix.rank_mul_le_left _ _

/-- C81 is false, first: a basis of at least two blocks is always formed.  When twice the number of bands exceeds the dimension of the space
(of the constraint, if there is one), every run aborts, whatever the initial block, although the problem is well posed. -/
theorem C81_small_space_refuted {a : Args N p} {e : Env N p} (g : Good a) (he : EnvOK e) (hd : (a.C.getD 1).rank < 2 * p) (Y : M N p)
    (work : ℕ → M N p) (fuel : ℕ) : davidson a e fuel Y work = none := by
  by_cases hn : a.nWork < 4
  · unfold davidson; rw [if_pos hn]
  refine davidson_first g he Y work fuel (fun s w hi R => ?_)
  obtain ⟨I, -⟩ := initial_spec g he (by omega) hi
  cases hx : expand a e s w with
  | none => rfl
  | some s' =>
    exfalso
    obtain ⟨i1, -, -, -, i5⟩ := expand_spec g he (by omega) I R hx
    have h1 : (stack g.hp s'.V (p * 2))ᴴ * stack g.hp s'.V (p * 2) = 1 :=
      stack_orthonormal g.hp rfl (fun i hi j hj => i1.orth i (by omega) j (by omega))
    have h2 : (a.C.getD 1) * stack g.hp s'.V (p * 2) = stack g.hp s'.V (p * 2) := by
      cases hC : a.C with
      | none => simp
      | some C =>
        simp only [Option.getD_some]
        exact constrained_stack g.hp rfl (fun i hi => i1.constr i (by omega)) C hC
    have := orthonormal_card h1 h2
    omega

/-- The block of the first iteration spans the same space as the initial one. -/
theorem first_block {a : Args N p} {e : Env N p} {hp : 0 < p} {s : St N p} {w : Ritz N p} (R : RitzOK a e hp s w) (hb : s.ibasis = 0) :
    ∃ L : Sq p, w.Y = s.V 0 * L := by
  obtain ⟨Z', hc', hZ'⟩ := combine_spec hp R.itq rfl w.S s.V (e.junkY s.iter) (s.ibasis + 1) (le_refl _)
  have hc := combine_eq hp (Nat.succ_pos s.ibasis) R.itq rfl w.S s.V (e.junkY s.iter)
  rw [hc] at hc'
  have h1 := Option.some.inj hc'
  rw [hZ' (by omega), hb, Finset.sum_range_one] at h1
  refine ⟨(block (size p 0) (w.it * size p 0 + p * 0) w.S)ᴴ, ?_⟩
  rw [R.Y, ← h1, hb]

/-- C81 is false, second: a run that starts from an exact solution aborts.  (`K 0 = 0` holds for all of mpb's preconditioners, C78.) -/
theorem C81_exact_start_refuted {a : Args N p} {e : Env N p} (g : Good a) (he : EnvOK e) (hK : ∀ K, a.K = some K → ∀ Y v, K 0 Y v = 0)
    {Y : M N p} {S : Sq p} (hY : a.A * constrain a Y = constrain a Y * S) (work : ℕ → M N p) (fuel : ℕ) : davidson a e fuel Y work = none := by
  by_cases hn : a.nWork < 4
  · unfold davidson; rw [if_pos hn]
  refine davidson_first g he Y work fuel (fun s w hi R => ?_)
  obtain ⟨I, -, ⟨T, hT, hV⟩, hb, -⟩ := initial_spec g he (by omega) hi
  have hp := g.hp
  obtain ⟨L, hL⟩ := first_block R hb
  have hYY : (w.Y)ᴴ * w.Y = 1 := by have := R.basis.orthonormal; rwa [Matrix.mul_one] at this
  have hVV : (s.V 0)ᴴ * s.V 0 = 1 := by have := I.orth 0 (by omega) 0 (by omega); rwa [if_pos rfl] at this
  have hLL : Lᴴ * L = 1 := by
    rw [hL, conjTranspose_mul, show Lᴴ * (s.V 0)ᴴ * (s.V 0 * L) = Lᴴ * ((s.V 0)ᴴ * s.V 0) * L by simp only [Matrix.mul_assoc], hVV, Matrix.mul_one] at hYY
    exact hYY
  have hLL' : L * Lᴴ = 1 := mul_eq_one_comm.1 hLL
  obtain ⟨T', hT'⟩ := hT.exists_right_inv
  have hAY : ∃ Q : Sq p, a.A * w.Y = w.Y * Q := by
    refine ⟨Lᴴ * T' * S * T * L, ?_⟩
    have e1 : s.V 0 * T' = constrain a Y := by rw [hV, Matrix.mul_assoc, hT', Matrix.mul_one]
    calc a.A * w.Y = a.A * constrain a Y * (T * L) := by rw [hL, hV]; simp only [Matrix.mul_assoc]
      _ = constrain a Y * S * (T * L) := by rw [hY]
      _ = s.V 0 * (L * Lᴴ) * T' * S * (T * L) := by rw [hLL', Matrix.mul_one, e1]
      _ = w.Y * (Lᴴ * T' * S * T * L) := by rw [hL]; simp only [Matrix.mul_assoc]
  obtain ⟨Q, hQ⟩ := hAY
  have hQd : Q = diagonal (fun i => ((w.vals i : ℝ) : ℂ)) := by
    have := R.basis.diagonal
    rw [Matrix.mul_assoc, hQ, ← Matrix.mul_assoc, hYY, Matrix.one_mul] at this
    exact this
  have hres : residual (a.A * w.Y) w.Y w.vals = 0 := by
    unfold residual
    rw [hQ, hQd, sub_self]
  have hdir : newDirection a w.Y w.vals = 0 := by
    unfold newDirection applyK
    rw [hres]
    have h0 : (match a.K with | some K => K 0 w.Y w.vals | none => 0) = (0 : M N p) := by
      cases hk : a.K with
      | none => rfl
      | some K => exact hK K hk w.Y w.vals
    refine (congrArg (constrain a) h0).trans ?_
    unfold constrain
    cases a.C <;> simp
  cases hx : expand a e s w with
  | none => rfl
  | some s' =>
    exfalso
    unfold expand at hx
    simp only at hx
    rw [combine_eq hp (Nat.succ_pos s.ibasis) R.itq rfl] at hx
    simp only [Option.bind_some] at hx
    have hAY : stack hp w.AV (size p s.ibasis) * (rows p (size p s.ibasis) w.it w.S)ᴴ = a.A * w.Y := by
      rw [R.Y, ← Matrix.mul_assoc, mul_stack]
      congr 1
      exact stack_congr hp rfl (fun i hi => R.AV i hi)
    have hnb : (s.ibasis + 1) % nbasis a = 1 := by
      rw [hb]; exact Nat.mod_eq_of_lt (by unfold nbasis; omega)
    rw [hAY, Option.map_eq_some_iff] at hx
    obtain ⟨X, hX, -⟩ := hx
    simp only [hnb, one_ne_zero, decide_false, Bool.false_eq_true, if_false, Function.update_self] at hX
    obtain ⟨-, -, hinj⟩ := orthonormalize_spec (a := a) he hX
    have hz : orthogonalize (Function.update (Function.update s.V 1 (a.A * w.Y)) 1 (residual (a.A * w.Y) w.Y w.vals)) 1
        (newDirection a w.Y w.vals) = 0 := by
      rw [hdir]; simp [orthogonalize]
    have hne : (fun _ => 1 : Fin p → ℂ) ≠ 0 := fun h => one_ne_zero (congrFun h ⟨0, hp⟩)
    apply hne
    apply hinj
    rw [Matrix.mulVec_zero]
    refine Eq.trans (congrArg (fun W : M N p => W.mulVec _) hz) ?_
    exact Matrix.zero_mulVec _

/-! ## A run that returns -/

theorem returns_tol {tol : ℝ} (ht : 2 ≤ tol) (x y : ℝ) : |x - y| < tol * 0.5 * (|x| + |y| + 1 / 10 ^ 7) := by
  have h1 : |x - y| ≤ |x| + |y| := abs_sub _ _
  have h2 := abs_nonneg x
  have h3 := abs_nonneg y
  have h5 : (0 : ℝ) < 1 / 10 ^ 7 := by positivity
  have h4 : (2 : ℝ) * 0.5 * (|x| + |y| + 1 / 10 ^ 7) ≤ tol * 0.5 * (|x| + |y| + 1 / 10 ^ 7) :=
    mul_le_mul_of_nonneg_right (by linarith) (by positivity)
  norm_num at h4 ⊢
  linarith

theorem returns_second {a : Args N p} {e : Env N p} (g : Good a) (he : EnvOK e) (hn : 4 ≤ a.nWork) (ht : 2 ≤ a.tol) {Y : M N p} {work : ℕ → M N p}
    {s : St N p} (hi : initial a e Y work = some s) (hx : ∀ w, RitzOK a e g.hp s w → expand a e s w ≠ none) :
    ∃ sol, davidson a e 100000 Y work = some sol ∧ sol.iterations = 1 := by
  obtain ⟨I, hr, -, -, hit⟩ := initial_spec g he hn hi
  obtain ⟨w, hw, R⟩ := ritz_spec (e := e) g he I
  cases hx1 : expand a e s w with
  | none => exact absurd hx1 (hx w R)
  | some s1 =>
    obtain ⟨i1, -, -, hs1, -⟩ := expand_spec g he hn I R hx1
    obtain ⟨w1, hw1, R1⟩ := ritz_spec (e := e) g he i1
    have hl : ∃ s2 log, loop a e 100000 s [] = .done s2 log ∧ s2.iter = 1 := by
      rw [show (100000 : ℕ) = 99998 + 1 + 1 from rfl]
      refine ⟨{ s1 with Y := w1.Y, vals := w1.vals }, w1.vals :: [w.vals], ?_, by simp only; omega⟩
      rw [loop]
      simp only [hw]
      rw [if_neg (fun hc => by have := hc.1; omega), hx1]
      simp only
      rw [if_pos (by unfold maxIterations; omega), loop]
      simp only [hw1]
      have hcv : Converged a.tol s1.iter (energy w1.vals) s1.prevE := by
        refine ⟨by omega, ?_⟩
        exact returns_tol ht _ _
      rw [if_pos hcv]
    obtain ⟨s2, log, hl, h2⟩ := hl
    obtain ⟨v, v', l, -, r1, r2, -⟩ := loop_spec g he hn 100000 s [] s2 log I hr hl
    obtain ⟨Z, z1, -⟩ := finish_spec g he r1 r2
    refine ⟨⟨Z, v, s2.iter, log.reverse⟩, ?_, h2⟩
    unfold davidson
    rw [if_neg (by omega), hi]
    simp only [Option.bind_some, hl, z1, Option.map_some]

/-- The operator diag(1, 2), one band, a coarse tolerance. -/
noncomputable def exampleArgs : Args 2 1 where
  A := sym 1 0 2
  K := none
  C := none
  nWork := 4
  tol := 3
  target := 0

theorem example_good : Good exampleArgs where
  hp := Nat.one_pos
  hA := by
    ext i j
    fin_cases i <;> fin_cases j <;> simp [exampleArgs, sym]
  idem := fun C h => by cases h

/-- The hypotheses of the theorems on the Davidson eigensolver are met: a run from (1, 1) that returns. -/
theorem example_returns : ∃ (e : Env 2 1) (sol : Solution 2 1), EnvOK e ∧ davidson exampleArgs e 100000 (Eig.col 1 1) (fun _ => 0) = some sol ∧
    sol.iterations = 1 := by
  have g := example_good
  have he : EnvOK (exactEnv : Env 2 1) := exactEnv_ok
  have hn : 4 ≤ exampleArgs.nWork := le_refl _
  have hinj : Function.Injective (constrain exampleArgs (Eig.col 1 1)).mulVec := by
    intro u v h
    have := congrFun h 0
    simp [constrain, exampleArgs, Eig.col, Matrix.mulVec, dotProduct] at this
    funext i
    rw [Subsingleton.elim i 0]
    exact this
  obtain ⟨s, hi, -⟩ := C81_ends_partial g he hn (Eig.col 1 1) (fun _ => 0) hinj (le_refl _)
  obtain ⟨I, -, ⟨T, hT, hV⟩, hb, -⟩ := initial_spec g he hn hi
  suffices hh : ∀ w, RitzOK exampleArgs exactEnv g.hp s w → expand exampleArgs exactEnv s w ≠ none by
    obtain ⟨sol, h1, h2⟩ := returns_second g he hn (by norm_num [exampleArgs]) hi hh
    exact ⟨_, sol, he, h1, h2⟩
  intro w R hx
  obtain ⟨n, hd, hn'⟩ := expand_none g he R hx
  have hm : (s.ibasis + 1) % nbasis exampleArgs = 1 := by
    rw [hb]; rfl
  rw [hm] at hd hn'
  simp only [one_ne_zero, if_false] at hd hn'
  subst hn'
  obtain ⟨c, c1, B, hB⟩ := hd
  rw [Finset.sum_range_one] at hB
  obtain ⟨L, hL⟩ := first_block R hb
  have hYY : (w.Y)ᴴ * w.Y = 1 := by have := R.basis.orthonormal; rwa [Matrix.mul_one] at this
  have hv0 : s.V 0 0 0 = s.V 0 1 0 := by
    rw [hV]; simp [Matrix.mul_apply, constrain, exampleArgs, Eig.col]
  have hy : w.Y 0 0 = w.Y 1 0 := by
    rw [hL]; simp [Matrix.mul_apply, hv0]
  have hy0 : w.Y 1 0 ≠ 0 := by
    intro h0
    have := congrFun (congrFun hYY 0) 0
    simp [Matrix.mul_apply, hy, h0] at this
  have b0 := congrFun hB 0
  have b1 := congrFun hB 1
  simp [newDirection, applyK, residual, constrain, exampleArgs, Matrix.mulVec, Matrix.vecMul, dotProduct, Matrix.mul_apply, sym, hy, hv0, Fin.sum_univ_two] at b0 b1
  have hc0 : c 0 ≠ 0 := fun h => c1 (by funext i; rw [Subsingleton.elim i 0]; exact h)
  have : w.Y 1 0 * c 0 = 0 := by linear_combination b1 - b0
  rcases mul_eq_zero.1 this with h | h
  · exact hy0 h
  · exact hc0 h

/-- The conclusions of C80 hold of that run. -/
example : ∃ (e : Env 2 1) (sol : Solution 2 1), davidson exampleArgs e 100000 (Eig.col 1 1) (fun _ => 0) = some sol ∧
    Spec.RitzBasis (sym 1 0 2) 1 sol.Y sol.vals := by
  obtain ⟨e, sol, he, h, -⟩ := example_returns
  exact ⟨e, sol, h, (C80_result example_good he h).1⟩

/-- The same operator and two bands: no run returns. -/
example (e : Env 2 2) (he : EnvOK e) (Y : M 2 2) : davidson { A := sym 1 0 2, K := none, C := none, nWork := 4, tol := 3, target := 0 } e 100000 Y
    (fun _ => 0) = none := by
  refine C81_small_space_refuted (p := 2) ⟨by norm_num, (example_good.hA : (sym 1 0 2).IsHermitian), fun C h => by cases h⟩ he ?_ Y _ _
  show (1 : Matrix (Fin 2) (Fin 2) ℂ).rank < 4
  rw [Matrix.rank_one, Fintype.card_fin]
  norm_num

/-- One band, started from the exact solution (1, 0): no run returns. -/
example (e : Env 2 1) (he : EnvOK e) : davidson exampleArgs e 100000 (Eig.col 1 0) (fun _ => 0) = none := by
  refine C81_exact_start_refuted example_good he (fun K h => by cases h) (S := 1) ?_ _ _
  ext i j
  fin_cases i <;> fin_cases j <;> simp [constrain, exampleArgs, sym, Eig.col, Matrix.mul_apply]

end Mpb.Davidson

import Verif.Eig.StepProps
import Verif.Eig.Spec
import Mathlib.LinearAlgebra.Dimension.Constructions
import Mathlib.LinearAlgebra.FiniteDimensional.Basic

/-!
# Theorems about the eigensolver
-/

namespace Mpb.Eig

open Matrix Mpb.Solver

open scoped ComplexOrder

variable {N p m : ℕ}

theorem eigensolver_inv {a : Args N p} {e : Env N p} {fuel : ℕ} {Y : M N p} {work : ℕ → M N p} {sol : Solution N p}
    (h : eigensolver a e fuel Y work = some sol) :
    ∃ s s' log, begin a e (initial a Y work) = some s ∧ loop a e fuel s [] = .done s' log ∧ finish a e s' = some (sol.Y, sol.vals) ∧
      sol.iterations = s'.iter ∧ sol.log = log.reverse := by
  unfold eigensolver at h
  split_ifs at h
  split at h
  · cases h
  · rename_i s hs
    split at h
    · rename_i s' log hl
      rw [Option.map_eq_some_iff] at h
      obtain ⟨v, hv, rfl⟩ := h
      exact ⟨s, s', log, hs, hl, hv, rfl, rfl⟩
    · cases h

/-! ## C68: descent -/

theorem mono_consecutive : ∀ (log l₁ l₂ : List Event) (E E' : ℝ), Mono log → log = l₁ ++ .trace E' :: .trace E :: l₂ → E' ≤ E := by
  intro log
  induction log with
  | nil => intro l₁ l₂ E E' _ h; simp at h
  | cons x l ih =>
    intro l₁ l₂ E E' hm h
    cases l₁ with
    | nil =>
      simp only [List.nil_append, List.cons.injEq] at h
      obtain ⟨rfl, rfl⟩ := h
      exact hm.1
    | cons y l₁ =>
      simp only [List.cons_append, List.cons.injEq] at h
      refine ih l₁ l₂ E E' ?_ h.2
      cases x with
      | restart => simpa [Mono] using hm
      | trace F =>
        cases l with
        | nil => simp [Mono]
        | cons z l =>
          cases z with
          | restart => simpa [Mono] using hm
          | trace F' => exact hm.2

/-- C68: with exact line minimisations the trace the solver reports never increases from one iteration to the next, whatever the
preconditioner, the number of work arrays (steepest descent, Fletcher-Reeves, Polak-Ribiere), the resets of the search direction, the
starting block and the constraint; only an emergency restart with a random block can come between. -/
theorem C68_descent {a : Args N p} {e : Env N p} (g : Good a) (he : EnvOK e) (hx : Exact a e) {fuel : ℕ} {Y : M N p} {work : ℕ → M N p}
    {sol : Solution N p} (h : eigensolver a e fuel Y work = some sol) {l₁ l₂ : List Event} {E E' : ℝ}
    (hl : sol.log = l₁ ++ .trace E :: .trace E' :: l₂) : E' ≤ E := by
  obtain ⟨s, s', log, hb, hr, -, -, hlog⟩ := eigensolver_inv h
  obtain ⟨b1, b2, b3, b4, b5, b6, b7, b8⟩ := begin_spec g hb
  have hm := loop_mono g he hx fuel s [] s' log
    ⟨b1, fun hc => by
        rw [b8 hc]
        intro C hC
        have := (sD_cases a).1 hc
        simp only [initial]
        rw [if_neg (by omega), if_pos (Or.inl ⟨hc, trivial⟩), Matrix.mul_zero],
      by rw [b5]; simp only [initial]; rw [abs_of_pos (by norm_num)]; linarith [Real.pi_gt_three], by rw [b7]; rfl, by rw [b6]; rfl⟩
    trivial (fun E l hh => by cases hh) hr
  refine mono_consecutive log l₂.reverse l₁.reverse E E' hm ?_
  have := congrArg List.reverse hlog
  rw [List.reverse_reverse, hl] at this
  rw [← this]
  simp

/-! ## C74: what a finished run means -/

theorem lastTrace_split : ∀ (l : List Event), 0 < traces l → ∃ l₂ l₁, l = l₂ ++ .trace (lastTrace l) :: l₁ ∧ ∀ x ∈ l₂, x = .restart := by
  intro l
  induction l with
  | nil => intro h; simp [traces] at h
  | cons x l ih =>
    intro h
    cases x with
    | trace E => exact ⟨[], l, rfl, by simp⟩
    | restart =>
      obtain ⟨l₂, l₁, e1, e2⟩ := ih h
      refine ⟨.restart :: l₂, l₁, ?_, ?_⟩
      · simp only [lastTrace, List.cons_append, List.cons.injEq, true_and]
        exact e1
      · intro x hx
        rcases List.mem_cons.1 hx with rfl | hx
        · rfl
        · exact e2 x hx

theorem traces_reverse (l : List Event) : traces l.reverse = traces l := by
  have happ : ∀ l l' : List Event, traces (l ++ l') = traces l + traces l' := by
    intro l l'
    induction l with
    | nil => simp [traces]
    | cons x l ih => cases x <;> simp only [List.cons_append, traces, ih]; omega
  induction l with
  | nil => rfl
  | cons x l ih => rw [List.reverse_cons, happ, ih]; cases x <;> simp [traces]

/-- C74: what a run that ends tells the user, for all flags: the block is `B`-orthonormal and satisfies the constraint, `A` is diagonal in
it with the reported eigenvalues in increasing order; their sum is the last trace reported; the last two traces meet the tolerance; and
the reported number of iterations is the number of traces before the last. -/
theorem C74_result {a : Args N p} {e : Env N p} (g : Good a) (he : EnvOK e) {fuel : ℕ} {Y : M N p} {work : ℕ → M N p} {sol : Solution N p}
    (h : eigensolver a e fuel Y work = some sol) :
    Spec.RitzBasis a.A (Bm a) sol.Y sol.vals ∧ Constrained a sol.Y ∧
      ∃ l₁ E' l₂ E, sol.log = l₁ ++ .trace E' :: (l₂ ++ [.trace E]) ∧ (∀ x ∈ l₂, x = .restart) ∧
        |E - E'| < a.tol * 0.5 * (E + E' + 1 / 10 ^ 7) ∧ ∑ i, sol.vals i = E ∧ sol.iterations + 1 = traces sol.log := by
  obtain ⟨s, s', log, hb, hr, hf, hit, hlog⟩ := eigensolver_inv h
  obtain ⟨b1, b2, b3, b4, -⟩ := begin_spec g hb
  obtain ⟨E, l, c1, c2, c3, c4, c5, c6⟩ := loop_done g he fuel s [] s' log b1 (by rw [b4]; rfl) (by rw [b2]; rfl) hr
  obtain ⟨Z, vals, f1, f2, f3, f4, f5, T, f6, f7⟩ := finish_spec g he c3 c4
  rw [hf] at f1
  simp only [Option.some.injEq, Prod.mk.injEq] at f1
  obtain ⟨e1, e2⟩ := f1
  rw [e1, e2]
  obtain ⟨l₂, l₁, k1, k2⟩ := lastTrace_split l (by rw [← c6]; exact c5.1)
  refine ⟨⟨f2, f3, f4⟩, f5, l₁.reverse, lastTrace l, l₂.reverse, E, ?_, fun x hx => k2 x (List.mem_reverse.1 hx), c5.2, ?_, ?_⟩
  · rw [hlog, c1]
    conv_lhs => rw [k1]
    simp
  · have hz : Spec.rayleigh a.A (Bm a) Z = E := by rw [f7, rayleigh_mul _ _ _ _ f6, c2]
    unfold Spec.rayleigh at hz
    rw [f2, f3, inv_one, Matrix.mul_one, Matrix.trace_diagonal] at hz
    rw [← hz, Complex.re_sum]
    rfl
  · rw [hit, hlog, traces_reverse, c1, c6]
    rfl

theorem loop_succ {a : Args N p} {e : Env N p} : ∀ (f : ℕ) (s : St N p) (log : List Event), loop a e f s log ≠ .outOfFuel →
    loop a e (f + 1) s log = loop a e f s log := by
  intro f
  induction f with
  | zero => intro s log h; simp [loop] at h
  | succ f ih =>
    intro s log h
    rw [loop] at h
    rw [loop, loop]
    split
    · rfl
    · rfl
    · rename_i s1 hs
      rw [hs] at h
      simp only at h
      split
      · rfl
      · rename_i s2 hb
        rw [hb] at h
        exact ih _ _ h
    · rename_i s1 E hs
      rw [hs] at h
      simp only at h
      split_ifs with hlt
      · rw [if_pos hlt] at h
        exact ih _ _ h
      · rfl

/-- C74 (end): the run always ends, after at most 110000 iterations and restarts: allowing more makes no difference. -/
theorem C74_ends {a : Args N p} {e : Env N p} (g : Good a) (he : EnvOK e) (Y : M N p) (work : ℕ → M N p) {fuel : ℕ} (hf : 110000 ≤ fuel) :
    (∀ s, begin a e (initial a Y work) = some s → loop a e fuel s [] ≠ .outOfFuel) ∧
      eigensolver a e fuel Y work = eigensolver a e 110000 Y work := by
  have key : ∀ s, begin a e (initial a Y work) = some s → ∀ k, loop a e (110000 + k) s [] ≠ .outOfFuel := by
    intro s hs k
    obtain ⟨b1, b2, b3, b4⟩ := begin_spec g hs
    refine loop_fuel g he _ s [] ?_ ?_ ?_
    · rw [b2]; simp [initial, maxIterations]
    · rw [b3]; simp [initial]
    · rw [b2, b3]
      simp only [initial, maxIterations]
      omega
  obtain ⟨k, rfl⟩ := Nat.exists_eq_add_of_le hf
  refine ⟨fun s hs => key s hs k, ?_⟩
  unfold eigensolver
  split_ifs
  · rfl
  · cases hs : begin a e (initial a Y work) with
    | none => rfl
    | some s =>
      simp only
      have : ∀ k, loop a e (110000 + k) s [] = loop a e 110000 s [] := by
        intro k
        induction k with
        | zero => rfl
        | succ k ih => rw [← Nat.add_assoc, loop_succ _ _ _ (key s hs k), ih]
      rw [this]

/-! ## C75: variational bounds -/

theorem exists_kernel (j : ℕ) (F : Matrix (Fin j) (Fin (j + 1)) ℂ) : ∃ x : Fin (j + 1) → ℂ, x ≠ 0 ∧ F.mulVec x = 0 := by
  have h : LinearMap.ker F.mulVecLin ≠ ⊥ := LinearMap.ker_ne_bot_of_finrank_lt (by simp)
  obtain ⟨x, hx, h0⟩ := (Submodule.ne_bot_iff _).1 h
  exact ⟨x, h0, by simpa using hx⟩

theorem sum_normSq_eq {n : ℕ} (d : Fin n → ℝ) (z : Fin n → ℂ) :
    (star z ⬝ᵥ (Matrix.diagonal (fun i => ((d i : ℝ) : ℂ))).mulVec z) = ((∑ i, d i * Complex.normSq (z i) : ℝ) : ℂ) := by
  simp only [dotProduct, mulVec_diagonal, Pi.star_apply]
  push_cast
  refine Finset.sum_congr rfl fun i _ => ?_
  rw [Complex.normSq_eq_conj_mul_self]
  show (starRingEnd ℂ) (z i) * _ = _
  ring

/-- C75: the reported eigenvalues are upper bounds: the j-th is at least the j-th true eigenvalue of the constrained problem, whenever the
block satisfies the constraint (as it does, `C74_result`), converged or not. -/
theorem C75_upper_bound {A B : Matrix (Fin N) (Fin N) ℂ} {Y : Matrix (Fin N) (Fin p) ℂ} {vals : Fin p → ℝ} (hR : Spec.RitzBasis A B Y vals)
    {P : (Fin N → ℂ) → Prop} (hP : ∀ c, P (Y.mulVec c)) {V : Matrix (Fin N) (Fin m) ℂ} {lam : Fin m → ℝ} (hV : Spec.Modes A B P V lam)
    (j : Fin p) (k : Fin m) (hk : (k : ℕ) = j) : lam k ≤ vals j := by
  -- the block in the basis of the modes
  obtain ⟨T, hT⟩ : ∃ T : Matrix (Fin m) (Fin p) ℂ, Y = V * T := by
    have : ∀ i : Fin p, ∃ c, Y.mulVec (Pi.single i 1) = V.mulVec c := fun i => hV.complete _ (hP _)
    choose c hc using this
    refine ⟨Matrix.of fun l i => c i l, ?_⟩
    ext r i
    have := congrFun (hc i) r
    rw [Matrix.mulVec_single_one] at this
    simp only [Matrix.col_apply] at this
    rw [this]
    simp [Matrix.mulVec, Matrix.mul_apply, dotProduct]
  have hTT : Tᴴ * T = 1 := by
    have := hR.orthonormal
    rw [hT, conjTranspose_mul] at this
    rw [← this]
    calc Tᴴ * T = Tᴴ * (Vᴴ * B * V) * T := by rw [hV.orthonormal, Matrix.mul_one]
      _ = _ := by simp only [Matrix.mul_assoc]
  have hTA : Tᴴ * Matrix.diagonal (fun i => ((lam i : ℝ) : ℂ)) * T = Matrix.diagonal (fun i => ((vals i : ℝ) : ℂ)) := by
    have := hR.diagonal
    rw [← this, hT, conjTranspose_mul]
    have : Tᴴ * Vᴴ * A * (V * T) = Tᴴ * (Vᴴ * (A * V)) * T := by simp only [Matrix.mul_assoc]
    rw [this, hV.eigen, ← Matrix.mul_assoc Vᴴ, ← Matrix.mul_assoc Vᴴ, hV.orthonormal, Matrix.one_mul]
  -- a combination of the first j + 1 columns without the first j modes
  have hjp : (j : ℕ) + 1 ≤ p := j.2
  have hjm : (j : ℕ) < m := hk ▸ k.2
  obtain ⟨x, hx0, hx⟩ := exists_kernel j (Matrix.of fun i l => T ⟨i, by omega⟩ ⟨l, by omega⟩)
  let z : Fin p → ℂ := fun i => if h : (i : ℕ) < j + 1 then x ⟨i, h⟩ else 0
  have hz : ∀ i : Fin p, (j : ℕ) < i → z i = 0 := fun i hi => by simp only [z]; rw [dif_neg (by omega)]
  have hsum : ∀ (f : Fin p → ℂ), ∑ i, f i * z i = ∑ l : Fin ((j : ℕ) + 1), f ⟨l, by omega⟩ * x l := by
    intro f
    symm
    refine Finset.sum_of_injOn (fun l => (⟨l, by omega⟩ : Fin p)) ?_ ?_ ?_ ?_
    · intro l _ l' _ h; simpa [Fin.ext_iff] using h
    · intro l _; simp
    · intro i _ hi
      have : ¬ (i : ℕ) < j + 1 := by
        intro hlt
        exact hi ⟨⟨i, hlt⟩, by simp, rfl⟩
      rw [hz i (by omega), mul_zero]
    · intro l _
      simp only [z]
      rw [dif_pos l.2]
  have hw : ∀ i : Fin m, (i : ℕ) < j → T.mulVec z i = 0 := by
    intro i hi
    have := congrFun hx ⟨i, hi⟩
    simp only [Matrix.mulVec, dotProduct, Matrix.of_apply, Pi.zero_apply] at this
    simp only [Matrix.mulVec, dotProduct]
    rw [hsum]
    exact this
  have hzne : z ≠ 0 := by
    intro h0
    apply hx0
    funext l
    have := congrFun h0 ⟨l, by omega⟩
    simp only [z] at this
    rw [dif_pos l.2] at this
    exact this
  -- the two norms and the two quadratic forms
  have q1 : ∑ i, Complex.normSq (T.mulVec z i) = ∑ i, Complex.normSq (z i) := by
    have h1 := sum_normSq_eq (fun _ => 1) (T.mulVec z)
    have h2 := sum_normSq_eq (fun _ => 1) z
    simp only [Complex.ofReal_one, one_mul, show Matrix.diagonal (fun _ : Fin m => (1 : ℂ)) = 1 from Matrix.diagonal_one,
      show Matrix.diagonal (fun _ : Fin p => (1 : ℂ)) = 1 from Matrix.diagonal_one, Matrix.one_mulVec] at h1 h2
    have h3 : star (T.mulVec z) ⬝ᵥ T.mulVec z = star z ⬝ᵥ z := by
      rw [Matrix.star_mulVec, ← Matrix.dotProduct_mulVec, Matrix.mulVec_mulVec, hTT, Matrix.one_mulVec]
    rw [h1, h2] at h3
    exact_mod_cast h3
  have q2 : ∑ i, lam i * Complex.normSq (T.mulVec z i) = ∑ i, vals i * Complex.normSq (z i) := by
    have h1 := sum_normSq_eq lam (T.mulVec z)
    have h2 := sum_normSq_eq vals z
    have h3 : star (T.mulVec z) ⬝ᵥ (Matrix.diagonal (fun i => ((lam i : ℝ) : ℂ))).mulVec (T.mulVec z) =
        star z ⬝ᵥ (Matrix.diagonal (fun i => ((vals i : ℝ) : ℂ))).mulVec z := by
      rw [Matrix.star_mulVec, ← Matrix.dotProduct_mulVec, Matrix.mulVec_mulVec, Matrix.mulVec_mulVec, hTA]
    rw [h1, h2] at h3
    exact_mod_cast h3
  have b1 : lam k * ∑ i, Complex.normSq (T.mulVec z i) ≤ ∑ i, lam i * Complex.normSq (T.mulVec z i) := by
    rw [Finset.mul_sum]
    refine Finset.sum_le_sum fun i _ => ?_
    by_cases hi : (i : ℕ) < j
    · rw [hw i hi]; simp
    · exact mul_le_mul_of_nonneg_right (hV.sorted k i (by rw [Fin.le_def]; omega)) (Complex.normSq_nonneg _)
  have b2 : ∑ i, vals i * Complex.normSq (z i) ≤ vals j * ∑ i, Complex.normSq (z i) := by
    rw [Finset.mul_sum]
    refine Finset.sum_le_sum fun i _ => ?_
    by_cases hi : (j : ℕ) < i
    · rw [hz i hi]; simp
    · exact mul_le_mul_of_nonneg_right (hR.sorted i j (by rw [Fin.le_def]; omega)) (Complex.normSq_nonneg _)
  have hpos : 0 < ∑ i, Complex.normSq (z i) := by
    obtain ⟨i, hi⟩ := Function.ne_iff.1 hzne
    exact Finset.sum_pos' (fun i _ => Complex.normSq_nonneg _) ⟨i, Finset.mem_univ _, Complex.normSq_pos.2 hi⟩
  rw [q1, q2] at b1
  exact le_of_mul_le_mul_right (b1.trans b2) hpos

/-- C75 for the solver: every eigenvalue that `eigensolver` reports is at least the true one of the same index. -/
theorem C75_solver {a : Args N p} {e : Env N p} (g : Good a) (he : EnvOK e) {fuel : ℕ} {Y : M N p} {work : ℕ → M N p} {sol : Solution N p}
    (h : eigensolver a e fuel Y work = some sol) {V : Matrix (Fin N) (Fin m) ℂ} {lam : Fin m → ℝ}
    (hV : Spec.Modes a.A (Bm a) (fun x => ∀ C, a.C = some C → C.mulVec x = x) V lam) (j : Fin p) (k : Fin m) (hk : (k : ℕ) = j) :
    lam k ≤ sol.vals j := by
  obtain ⟨r1, r2, -⟩ := C74_result g he h
  refine C75_upper_bound r1 (fun c C hC => ?_) hV j k hk
  rw [Matrix.mulVec_mulVec, r2 C hC]

/-- Every trace in the record is that of an independent block that satisfies the constraint. -/
theorem loop_traces {a : Args N p} {e : Env N p} (g : Good a) (he : EnvOK e) : ∀ (f : ℕ) (s : St N p) (log : List Event) (s' : St N p) (log' : List Event),
    Constrained a (s.r 0) →
    (∀ E, .trace E ∈ log → ∃ Y : M N p, Function.Injective Y.mulVec ∧ Constrained a Y ∧ E = Spec.rayleigh a.A (Bm a) Y) →
    loop a e f s log = .done s' log' →
    ∀ E, .trace E ∈ log' → ∃ Y : M N p, Function.Injective Y.mulVec ∧ Constrained a Y ∧ E = Spec.rayleigh a.A (Bm a) Y := by
  intro f
  induction f with
  | zero => intro s log s' log' _ _ h; simp [loop] at h
  | succ f ih =>
    intro s log s' log' hC hl h
    have add : ∀ E, E = Spec.rayleigh a.A (Bm a) (s.r 0) → Function.Injective (s.r 0).mulVec →
        ∀ F, .trace F ∈ (.trace E :: log) → ∃ Y : M N p, Function.Injective Y.mulVec ∧ Constrained a Y ∧ F = Spec.rayleigh a.A (Bm a) Y := by
      intro E hE hi F hF
      rcases List.mem_cons.1 hF with hF | hF
      · simp only [Event.trace.injEq] at hF
        exact ⟨_, hi, hC, hF.trans hE⟩
      · exact hl F hF
    rw [loop] at h
    split at h
    · cases h
    · rename_i s1 E hs
      simp only [Result.done.injEq] at h
      obtain ⟨rfl, rfl⟩ := h
      obtain ⟨c1, c2, c3, -⟩ := step_converged g he hC hs
      exact add E c1 c3
    · rename_i s1 hs
      split at h
      · cases h
      · rename_i s2 hb
        obtain ⟨b1, -⟩ := begin_spec g hb
        refine ih s2 _ s' log' b1 (fun E hE => ?_) h
        rcases List.mem_cons.1 hE with hE | hE
        · cases hE
        · exact hl E hE
    · rename_i s1 E hs
      obtain ⟨n1, n2, n3, n4, n5, n6⟩ := step_next g he hs
      split_ifs at h
      exact ih s1 _ s' log' n3 (add E n1 n2) h

/-- Every block has a Ritz basis with the same trace. -/
theorem rayleigh_ritz {a : Args N p} {e : Env N p} (g : Good a) (he : EnvOK e) (work : ℕ → M N p) {Y : M N p} (hi : Function.Injective Y.mulVec)
    (hC : Constrained a Y) :
    ∃ Z vals, Spec.RitzBasis a.A (Bm a) Z vals ∧ Constrained a Z ∧ ∑ i, vals i = Spec.rayleigh a.A (Bm a) Y := by
  obtain ⟨Z, vals, -, f2, f3, f4, f5, T, f6, f7⟩ := finish_spec (s := initial a Y work) g he (by simpa [initial] using hi) (by simpa [initial] using hC)
  have f7' : Z = Y * T := by simpa [initial] using f7
  refine ⟨Z, vals, ⟨f2, f3, f4⟩, f5, ?_⟩
  have hz : Spec.rayleigh a.A (Bm a) Z = Spec.rayleigh a.A (Bm a) Y := by rw [f7', rayleigh_mul _ _ _ _ f6]
  rw [← hz]
  unfold Spec.rayleigh
  rw [f2, f3, inv_one, Matrix.mul_one, Matrix.trace_diagonal, Complex.re_sum]
  rfl

/-- C75 for the traces: every trace the solver reports on the way is at least the sum of the lowest true eigenvalues. -/
theorem C75_traces {a : Args N p} {e : Env N p} (g : Good a) (he : EnvOK e) {fuel : ℕ} {Y : M N p} {work : ℕ → M N p} {sol : Solution N p}
    (h : eigensolver a e fuel Y work = some sol) {V : Matrix (Fin N) (Fin m) ℂ} {lam : Fin m → ℝ}
    (hV : Spec.Modes a.A (Bm a) (fun x => ∀ C, a.C = some C → C.mulVec x = x) V lam) (hm : p ≤ m) {E : ℝ} (hE : .trace E ∈ sol.log) :
    ∑ j : Fin p, lam (Fin.castLE hm j) ≤ E := by
  obtain ⟨s, s', log, hb, hr, hf, hit, hlog⟩ := eigensolver_inv h
  obtain ⟨b1, -⟩ := begin_spec g hb
  obtain ⟨Z, z1, z2, z3⟩ := loop_traces g he fuel s [] s' log b1 (by simp) hr E (by rw [hlog] at hE; exact List.mem_reverse.1 hE)
  obtain ⟨W, vals, w1, w2, w3⟩ := rayleigh_ritz g he work z1 z2
  rw [z3, ← w3]
  refine Finset.sum_le_sum fun j _ => ?_
  refine C75_upper_bound w1 (fun c C hC => ?_) hV j _ rfl
  rw [Matrix.mulVec_mulVec, w2 C hC]

/-! ## C76: stationary points -/

/-- The gradient of an iteration. -/
theorem gradient_eq {a : Args N p} {e : Env N p} {s : St N p} {r : ℕ → M N p} {YtBY U : Sq p} (P : Prepared a s r YtBY U) :
    gradient a U (evalTrace a e s.iter U r).2 (evalTrace a e s.iter U r).1 1 =
      a.A * r 0 * U - Bm a * r 0 * (U * ((r 0)ᴴ * a.A * r 0 * U))ᴴ := by
  have hUH : U.IsHermitian := by rw [P.inv]; exact P.pos.isHermitian.inv
  obtain ⟨e1, e2⟩ := evalTrace_spec a e s.iter U r hUH
  have hb : sBY a ≠ 1 ∧ sBY a ≠ 2 := by unfold sBY; split_ifs <;> decide
  unfold gradient
  rw [put_same, e2 _ hb.1 hb.2, P.by_, e1]
  congr 1
  unfold evalTrace opA
  simp only [put_same]
  rw [hUH.eq]

/-- C76: the gradient vanishes exactly when the block spans an invariant subspace (`A Y = B Y S`), so that the iteration stands still at
exact solutions and only there. -/
theorem C76_stationary {a : Args N p} {e : Env N p} (g : Good a) (he : EnvOK e) {s : St N p} {r : ℕ → M N p} {YtBY U : Sq p} {tr : ℝ}
    (hp : prepare a e s = .ok r YtBY U tr) :
    gradient a U (evalTrace a e s.iter U r).2 (evalTrace a e s.iter U r).1 1 = 0 ↔ ∃ S, a.A * s.r 0 = Bm a * s.r 0 * S := by
  have P := prepare_spec g he s hp
  rw [gradient_eq P]
  have hUH : Uᴴ = U := by rw [P.inv]; exact P.pos.isHermitian.inv
  have hdet : IsUnit YtBY.det := (Matrix.isUnit_iff_isUnit_det _).1 P.pos.isUnit
  have hUY : U * YtBY = 1 := by rw [P.inv, Matrix.nonsing_inv_mul _ hdet]
  have hYU : YtBY * U = 1 := by rw [P.inv, Matrix.mul_nonsing_inv _ hdet]
  have hM : ((r 0)ᴴ * a.A * r 0)ᴴ = (r 0)ᴴ * a.A * r 0 := by
    simp only [conjTranspose_mul, conjTranspose_conjTranspose, g.hA.eq, Matrix.mul_assoc]
  obtain ⟨T, uT, eT⟩ := P.unit
  have hdT : IsUnit T.det := (Matrix.isUnit_iff_isUnit_det _).1 uT
  have hback : s.r 0 = r 0 * T⁻¹ := by rw [eT, Matrix.mul_assoc, Matrix.mul_nonsing_inv _ hdT, Matrix.mul_one]
  have hc : (U * ((r 0)ᴴ * a.A * r 0 * U))ᴴ = U * ((r 0)ᴴ * a.A * r 0) * U := by
    rw [conjTranspose_mul, conjTranspose_mul, hM, hUH]
  rw [hc]
  constructor
  · intro h0
    have h1 : a.A * r 0 = Bm a * r 0 * (U * ((r 0)ᴴ * a.A * r 0)) := by
      have h0' : a.A * r 0 * U = Bm a * r 0 * (U * ((r 0)ᴴ * a.A * r 0) * U) := eq_of_sub_eq_zero h0
      have := congrArg (fun Z : Matrix (Fin N) (Fin p) ℂ => Z * YtBY) h0'
      rw [Matrix.mul_assoc (a.A * r 0), hUY, Matrix.mul_one, ← Matrix.mul_assoc (Bm a * r 0) _ U, Matrix.mul_assoc _ U YtBY, hUY, Matrix.mul_one] at this
      exact this
    refine ⟨T * (U * ((r 0)ᴴ * a.A * r 0)) * T⁻¹, ?_⟩
    rw [hback, ← Matrix.mul_assoc, h1]
    rw [show Bm a * (r 0 * T⁻¹) * (T * (U * ((r 0)ᴴ * a.A * r 0)) * T⁻¹) = Bm a * r 0 * (T⁻¹ * T) * (U * ((r 0)ᴴ * a.A * r 0)) * T⁻¹ by
      simp only [Matrix.mul_assoc], Matrix.nonsing_inv_mul _ hdT, Matrix.mul_one]
  · rintro ⟨S, hS⟩
    have h1 : a.A * r 0 = Bm a * r 0 * (T⁻¹ * S * T) := by
      rw [eT, ← Matrix.mul_assoc, hS]
      rw [show Bm a * (s.r 0 * T) * (T⁻¹ * S * T) = Bm a * s.r 0 * (T * T⁻¹) * S * T by simp only [Matrix.mul_assoc], Matrix.mul_nonsing_inv _ hdT,
        Matrix.mul_one]
    have h2 : (r 0)ᴴ * a.A * r 0 = YtBY * (T⁻¹ * S * T) := by
      rw [Matrix.mul_assoc, h1, P.over]
      simp only [Matrix.mul_assoc]
    rw [h2, ← Matrix.mul_assoc U, hUY, Matrix.one_mul, h1]
    simp only [Matrix.mul_assoc, sub_self]

end Mpb.Eig

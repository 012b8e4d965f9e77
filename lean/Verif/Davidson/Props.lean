import Verif.Davidson.Step

/-!
# Properties of the Davidson eigensolver: C80, C81
-/

namespace Mpb.Davidson

open Matrix Mpb.Solver Mpb.Eig

open scoped ComplexOrder

variable {N p m : ℕ}

/-- A block of Ritz vectors in the span of a larger one has larger Ritz values, band by band. -/
theorem ritz_compare {q : ℕ} {A : Matrix (Fin N) (Fin N) ℂ} {Z : Matrix (Fin N) (Fin q) ℂ} {lam : Fin q → ℝ} (hZ : Spec.RitzBasis A 1 Z lam)
    {Y : Matrix (Fin N) (Fin m) ℂ} {vals : Fin m → ℝ} (hY : Spec.RitzBasis A 1 Y vals) {T : Matrix (Fin q) (Fin m) ℂ} (h : Y = Z * T)
    (j : Fin m) (k : Fin q) (hk : (k : ℕ) = j) : lam k ≤ vals j := by
  have h1 := hZ.orthonormal
  rw [Matrix.mul_one] at h1
  refine C75_upper_bound (A := diagonal (fun i => ((lam i : ℝ) : ℂ))) (B := 1) (Y := T) (P := fun _ => True) (V := 1) ⟨?_, ?_, hY.sorted⟩ (fun _ => trivial)
    ⟨by simp, by simp, hZ.sorted, fun x _ => ⟨x, by simp⟩⟩ j k hk
  · have := hY.orthonormal
    rw [h, Matrix.mul_one, conjTranspose_mul, show Tᴴ * Zᴴ * (Z * T) = Tᴴ * (Zᴴ * Z) * T by simp only [Matrix.mul_assoc], h1] at this
    exact this
  · have := hY.diagonal
    rw [h, conjTranspose_mul, show Tᴴ * Zᴴ * A * (Z * T) = Tᴴ * (Zᴴ * A * Z) * T by simp only [Matrix.mul_assoc], hZ.diagonal] at this
    exact this

theorem span_mul (hp : 0 < p) {V : ℕ → M N p} {n : ℕ} {Z : M N p} (h : InSpan V n Z) : ∃ T, Z = stack hp V (p * n) * T := by
  obtain ⟨B, hB⟩ := h
  exact ⟨_, hB.trans (sum_mul hp rfl V B)⟩

/-- The record of a run so far, the latest iteration first: the eigenvalues of every iteration are those of a block that satisfies the
constraint; for a run without target each is at most that of any earlier iteration; and the latest block is in the span of the basis. -/
structure Rec (a : Args N p) (s : St N p) (log : List (Fin p → ℝ)) : Prop where
  len : s.iter = log.length
  ritz : ∀ v ∈ log, ∃ Y : M N p, Spec.RitzBasis a.A 1 Y v ∧ Constrained a Y
  prev : ∀ v l, log = v :: l → s.prevE = energy v ∧ ∃ Y : M N p, Spec.RitzBasis a.A 1 Y v ∧ InSpan s.V (s.ibasis + 1) Y
  mono : a.target = 0 → log.Pairwise (fun v' v => ∀ i, v' i ≤ v i)

theorem rec_cons {a : Args N p} {e : Env N p} (g : Good a) {s : St N p} {log : List (Fin p → ℝ)} (hr : Rec a s log)
    {w : Ritz N p} (R : RitzOK a e g.hp s w) : a.target = 0 → (w.vals :: log).Pairwise (fun v' v => ∀ i, v' i ≤ v i) := by
  intro ht
  have hm := hr.mono ht
  obtain ⟨Z, ev, T, f1, f2, f3, f4⟩ := R.full
  have hit : w.it = 0 := by rw [f4, itarget, if_pos ht]
  cases log with
  | nil => simp
  | cons v l =>
    obtain ⟨-, Y, hY, hspan⟩ := hr.prev v l rfl
    obtain ⟨T', hT'⟩ : ∃ T' : Matrix (Fin (size p s.ibasis)) (Fin p) ℂ, Y = stack g.hp s.V (size p s.ibasis) * T' := span_mul g.hp hspan
    have hYZ : Y = Z * (T * T') := by rw [← Matrix.mul_assoc, ← f2]; exact hT'
    have key : ∀ i, w.vals i ≤ v i := by
      intro i
      rw [f3 i, hit, Nat.zero_add]
      have hlt : (i : ℕ) < size p s.ibasis := lt_of_lt_of_le i.2 (by have := R.itq; omega)
      exact ritz_compare f1 hY hYZ i ⟨i, hlt⟩ rfl
    refine List.pairwise_cons.2 ⟨fun u hu i => ?_, hm⟩
    rcases List.mem_cons.1 hu with rfl | hu
    · exact key i
    · exact le_trans (key i) ((List.pairwise_cons.1 hm).1 u hu i)

theorem loop_spec {a : Args N p} {e : Env N p} (g : Good a) (he : EnvOK e) (hn : 4 ≤ a.nWork) :
    ∀ (f : ℕ) (s : St N p) (log : List (Fin p → ℝ)) (s' : St N p) (log' : List (Fin p → ℝ)), Inv a g.hp s → Rec a s log →
      loop a e f s log = .done s' log' →
      ∃ v v' l, log' = v :: v' :: l ∧ Spec.RitzBasis a.A 1 s'.Y v ∧ Constrained a s'.Y ∧
        |energy v - energy v'| < a.tol * 0.5 * (|energy v| + |energy v'| + 1 / 10 ^ 7) ∧ s'.iter + 1 = log'.length ∧
        (∀ v ∈ log', ∃ Y : M N p, Spec.RitzBasis a.A 1 Y v ∧ Constrained a Y) ∧
        (a.target = 0 → log'.Pairwise (fun v' v => ∀ i, v' i ≤ v i)) := by
  intro f
  induction f with
  | zero => intro s log s' log' _ _ h; simp [loop] at h
  | succ f ih =>
    intro s log s' log' I hr h
    obtain ⟨w, hw, R⟩ := ritz_spec (e := e) g he I
    simp only [loop, hw] at h
    have hmono := rec_cons g hr R
    have hall : ∀ v ∈ w.vals :: log, ∃ Y : M N p, Spec.RitzBasis a.A 1 Y v ∧ Constrained a Y := by
      intro v hv
      rcases List.mem_cons.1 hv with rfl | hv
      · exact ⟨w.Y, R.basis, R.constr⟩
      · exact hr.ritz v hv
    by_cases hc : Converged a.tol s.iter (energy w.vals) s.prevE
    · rw [if_pos hc] at h
      simp only [Result.done.injEq] at h
      obtain ⟨rfl, rfl⟩ := h
      cases log with
      | nil =>
        have := hr.len
        have := hc.1
        simp_all
      | cons v' l =>
        obtain ⟨hE, -⟩ := hr.prev v' l rfl
        refine ⟨w.vals, v', l, rfl, R.basis, R.constr, ?_, ?_, hall, hmono⟩
        · rw [← hE]; exact hc.2
        · have := hr.len
          simp only [List.length_cons] at this ⊢
          omega
    · rw [if_neg hc] at h
      split at h
      · cases h
      · rename_i s1 hx
        obtain ⟨i1, i2, i3, i4, -⟩ := expand_spec g he hn I R hx
        split_ifs at h
        refine ih s1 (w.vals :: log) s' log' i1 ⟨?_, hall, ?_, hmono⟩ h
        · rw [i4, hr.len]; simp
        · intro v l hv
          simp only [List.cons.injEq] at hv
          obtain ⟨rfl, rfl⟩ := hv
          exact ⟨i3, w.Y, R.basis, i2⟩

theorem initial_spec {a : Args N p} {e : Env N p} (g : Good a) (he : EnvOK e) (hn : 4 ≤ a.nWork) {Y : M N p} {work : ℕ → M N p} {s : St N p}
    (h : initial a e Y work = some s) :
    Inv a g.hp s ∧ Rec a s [] ∧ (∃ R : Sq p, IsUnit R ∧ s.V 0 = constrain a Y * R) ∧ s.ibasis = 0 ∧ s.iter = 0 := by
  unfold initial at h
  simp only at h
  rw [Option.map_eq_some_iff] at h
  obtain ⟨X, hX, rfl⟩ := h
  obtain ⟨x1, ⟨S, hS, x2⟩, -⟩ := orthonormalize_spec (a := a) he hX
  refine ⟨⟨by simp only [nbasis]; omega, ?_, ?_, fun i hi => by simp at hi, by simp, fun x y _ hy => by simp at hy⟩,
    ⟨rfl, by simp, by simp, by simp⟩, ⟨S, hS, by simp [x2]⟩, rfl, rfl⟩
  · intro i hi j hj
    simp only at hi hj ⊢
    have : i = 0 := by omega
    have : j = 0 := by omega
    subst i; subst j
    rw [Function.update_self, x1, if_pos rfl]
  · intro i hi
    simp only at hi ⊢
    have : i = 0 := by omega
    subst i
    rw [Function.update_self, x2]
    exact constrained_mul (constrain_spec g Y).1 S

theorem mat_flat (hp : 0 < p) (S : Sq p) : mat p (flat S) = S := by
  ext i j
  obtain ⟨m1, m2⟩ := divmod (q := p) (x := (i : ℕ)) (y := (j : ℕ)) j.2
  unfold mat flat
  have hc : ((i : ℕ) * p + j) / p < p ∧ ((i : ℕ) * p + j) % p < p := by rw [m1, m2]; exact ⟨i.2, j.2⟩
  rw [dif_pos hc]
  exact congrArg₂ S (Fin.ext m1) (Fin.ext m2)

theorem block_zero (S : ℕ → ℂ) : (block p 0 S : Sq p) = mat p S := by
  ext i j
  simp [block, mat]

theorem finish_spec {a : Args N p} {e : Env N p} (g : Good a) (he : EnvOK e) {Y : M N p} {v : Fin p → ℝ} (hR : Spec.RitzBasis a.A 1 Y v)
    (hC : Constrained a Y) : ∃ Z, finish a e Y = some (Z, v) ∧ Spec.RitzBasis a.A 1 Z v ∧ Constrained a Z := by
  have hYY : Yᴴ * Y = 1 := by have := hR.orthonormal; rwa [Matrix.mul_one] at this
  have hpd : (Yᴴ * Y).PosDef := by rw [hYY]; exact Matrix.PosDef.one
  have hinv : e.inv (Yᴴ * Y) = some (Yᴴ * Y)⁻¹ := (he.inv _ hpd.isHermitian).1 hpd
  rw [hYY, inv_one] at hinv
  obtain ⟨q1, q2⟩ := he.sqrtm 1 Matrix.PosDef.one
  set R := e.sqrtm 1 with hRd
  have hRH : Rᴴ = R := q1
  unfold finish
  rw [hYY, hinv]
  simp only [Option.map_some]
  rw [← hRd, hRH]
  set W := Y * R with hW
  have hHerm : (Wᴴ * (a.A * W)).IsHermitian := herm_quad g.hA W
  obtain ⟨v1, v2, v3, v4⟩ := he.heev p (flat (Wᴴ * (a.A * W))) (by rw [mat_flat g.hp]; exact hHerm)
  rw [mat_flat g.hp] at v3
  set h := e.heev p (flat (Wᴴ * (a.A * W))) with hh
  rw [block_zero]
  set S := mat p h.1 with hS
  have hWW : Wᴴ * W = 1 := by
    rw [hW, conjTranspose_mul, hRH, show R * Yᴴ * (Y * R) = R * (Yᴴ * Y) * R by simp only [Matrix.mul_assoc], hYY, Matrix.mul_one, q2]
  have hB : Spec.RitzBasis a.A 1 (W * Sᴴ) (fun i : Fin p => h.2 i) := by
    refine ⟨?_, ?_, fun i j hij => v4 i j hij j.2⟩
    · rw [Matrix.mul_one, conjTranspose_mul, conjTranspose_conjTranspose, show S * Wᴴ * (W * Sᴴ) = S * (Wᴴ * W) * Sᴴ by simp only [Matrix.mul_assoc], hWW,
        Matrix.mul_one, v1]
    · rw [conjTranspose_mul, conjTranspose_conjTranspose, show S * Wᴴ * a.A * (W * Sᴴ) = S * (Wᴴ * (a.A * W)) * Sᴴ by simp only [Matrix.mul_assoc], v3]
      rw [show S * (Sᴴ * diagonal (fun i : Fin p => ((h.2 i : ℝ) : ℂ)) * S) * Sᴴ = (S * Sᴴ) * diagonal (fun i : Fin p => ((h.2 i : ℝ) : ℂ)) * (S * Sᴴ) by
        simp only [Matrix.mul_assoc]]
      rw [v1, Matrix.one_mul, Matrix.mul_one]
  have hZY : W * Sᴴ = Y * (R * Sᴴ) := by rw [hW, Matrix.mul_assoc]
  have hYZ : Y = W * Sᴴ * (S * R) := by
    rw [show W * Sᴴ * (S * R) = W * (Sᴴ * S) * R by simp only [Matrix.mul_assoc], v2, Matrix.mul_one, hW, Matrix.mul_assoc, q2, Matrix.mul_one]
  have hv : (fun i : Fin p => h.2 i) = v := by
    funext i
    exact le_antisymm (ritz_compare hB hR hYZ i i rfl) (ritz_compare hR hB hZY i i rfl)
  refine ⟨W * Sᴴ, by rw [hv], by rw [← hv]; exact hB, ?_⟩
  rw [hZY]
  exact constrained_mul hC _

theorem davidson_inv {a : Args N p} {e : Env N p} {fuel : ℕ} {Y : M N p} {work : ℕ → M N p} {sol : Solution N p}
    (h : davidson a e fuel Y work = some sol) :
    4 ≤ a.nWork ∧ ∃ s s' log, initial a e Y work = some s ∧ loop a e fuel s [] = .done s' log ∧ finish a e s'.Y = some (sol.Y, sol.vals) ∧
      sol.iterations = s'.iter ∧ sol.log = log.reverse := by
  unfold davidson at h
  split_ifs at h with hn
  refine ⟨by omega, ?_⟩
  cases hi : initial a e Y work with
  | none => rw [hi] at h; simp at h
  | some s =>
    rw [hi] at h
    simp only [Option.bind_some] at h
    split at h
    · rename_i s' log hl
      rw [Option.map_eq_some_iff] at h
      obtain ⟨v, hv, rfl⟩ := h
      exact ⟨s, s', log, rfl, hl, hv, rfl, rfl⟩
    · cases h

/-- C80 (result).  A run that returns gives orthonormal vectors in which the operator is diagonal with the returned eigenvalues, in
increasing order, and which satisfy the constraint.  The returned eigenvalues are those of the last iteration; they agreed with those of
the iteration before to the tolerance; the number of iterations is right; and every iteration's eigenvalues are Ritz values of a block
that satisfies the constraint. -/
theorem C80_result {a : Args N p} {e : Env N p} (g : Good a) (he : EnvOK e) {fuel : ℕ} {Y : M N p} {work : ℕ → M N p} {sol : Solution N p}
    (h : davidson a e fuel Y work = some sol) :
    Spec.RitzBasis a.A 1 sol.Y sol.vals ∧ (∀ C, a.C = some C → C * sol.Y = sol.Y) ∧
      (∃ l v', sol.log = l ++ [v', sol.vals] ∧
        |∑ i, sol.vals i - ∑ i, v' i| < a.tol * 0.5 * (|∑ i, sol.vals i| + |∑ i, v' i| + 1 / 10 ^ 7)) ∧
      sol.iterations + 1 = sol.log.length ∧
      ∀ v ∈ sol.log, ∃ Z : M N p, Spec.RitzBasis a.A 1 Z v ∧ ∀ C, a.C = some C → C * Z = Z := by
  obtain ⟨hn, s, s', log, hi, hl, hf, hit, hlog⟩ := davidson_inv h
  obtain ⟨I, hr, -⟩ := initial_spec g he hn hi
  obtain ⟨v, v', l, rfl, r1, r2, r3, r4, r5, -⟩ := loop_spec g he hn fuel s [] s' log I hr hl
  obtain ⟨Z, z1, z2, z3⟩ := finish_spec g he r1 r2
  rw [hf] at z1
  simp only [Option.some.injEq, Prod.mk.injEq] at z1
  obtain ⟨e1, e2⟩ := z1
  rw [e1, e2]
  refine ⟨z2, z3, ⟨l.reverse, v', ?_, r3⟩, ?_, ?_⟩
  · rw [hlog]; simp
  · rw [hlog, hit, r4]; simp
  · intro u hu
    rw [hlog] at hu
    exact r5 u (List.mem_reverse.1 hu)

/-- C80 (descent).  In a run without target every single eigenvalue estimate goes down or stays, from any iteration to any later one,
through all restarts, whatever the preconditioner. -/
theorem C80_descent {a : Args N p} {e : Env N p} (g : Good a) (he : EnvOK e) (ht : a.target = 0) {fuel : ℕ} {Y : M N p} {work : ℕ → M N p}
    {sol : Solution N p} (h : davidson a e fuel Y work = some sol) {l₁ l₂ l₃ : List (Fin p → ℝ)} {v v' : Fin p → ℝ}
    (hl : sol.log = l₁ ++ v :: (l₂ ++ v' :: l₃)) (i : Fin p) : v' i ≤ v i := by
  obtain ⟨hn, s, s', log, hi, hr, hf, hit, hlog⟩ := davidson_inv h
  obtain ⟨I, hrec, -⟩ := initial_spec g he hn hi
  obtain ⟨-, -, -, -, -, -, -, -, -, hm⟩ := loop_spec g he hn fuel s [] s' log I hrec hr
  have := List.pairwise_reverse.2 (hm ht)
  rw [← hlog, hl] at this
  have h2 := (List.pairwise_append.1 this).2.1
  exact (List.pairwise_cons.1 h2).1 v' (by simp) i

/-- C80 (upper bounds).  No returned eigenvalue is below the true one of the same number among the modes that satisfy the constraint, and
no iteration's is. -/
theorem C80_upper_bound {a : Args N p} {e : Env N p} (g : Good a) (he : EnvOK e) {fuel : ℕ} {Y : M N p} {work : ℕ → M N p} {sol : Solution N p}
    (h : davidson a e fuel Y work = some sol) {V : Matrix (Fin N) (Fin m) ℂ} {lam : Fin m → ℝ}
    (hV : Spec.Modes a.A 1 (fun x => ∀ C, a.C = some C → C.mulVec x = x) V lam) (j : Fin p) (k : Fin m) (hk : (k : ℕ) = j) :
    lam k ≤ sol.vals j ∧ ∀ v ∈ sol.log, lam k ≤ v j := by
  obtain ⟨r1, r2, -, -, r5⟩ := C80_result g he h
  refine ⟨C75_upper_bound r1 (fun c C hC => ?_) hV j k hk, fun v hv => ?_⟩
  · rw [Matrix.mulVec_mulVec, r2 C hC]
  · obtain ⟨Z, z1, z2⟩ := r5 v hv
    refine C75_upper_bound z1 (fun c C hC => ?_) hV j k hk
    rw [Matrix.mulVec_mulVec, z2 C hC]

/-- C80 (window).  With a target, the eigenvalues selected in an iteration are `p` consecutive ones of the sorted eigenvalues of the space,
and, when no eigenvalue is `p + 1`-fold, none that was left out is nearer to the target than one that was selected.  (mpb itself always
passes the target 0, mpb/mpb.c:718, 753.) -/
theorem C80_window_partial {q : ℕ} {t : ℝ} (ht : t ≠ 0) (ev : ℕ → ℝ) (hs : ∀ i j, i ≤ j → j < q → ev i ≤ ev j)
    (hd : ∀ i, i + p < q → ev i ≠ ev (i + p)) (hpq : p ≤ q) :
    itarget t p q ev + p ≤ q ∧ ∀ i < p, ∀ j < q, (j < itarget t p q ev ∨ itarget t p q ev + p ≤ j) →
      |t - ev (itarget t p q ev + i)| ≤ |t - ev j| := by
  refine ⟨itarget_le t ev hpq, ?_⟩
  obtain ⟨h1, h2, h3, h4⟩ := windowFrom_spec (p := p) t ev q 0 (by omega : 0 + p ≤ q) (by omega)
  have e : itarget t p q ev = windowFrom t p q ev q 0 := by unfold itarget; rw [if_neg ht]
  rw [e]
  generalize windowFrom t p q ev q 0 = k at h1 h2 h3 h4
  intro i hi j hj hout
  rcases hout with hlt | hge
  · have hk := h4 (k - 1) (Nat.zero_le _) (by omega)
    have a1 := hs j (k - 1) (by omega) (by omega)
    have a2 := hs (k - 1) (k + i) (by omega) (by omega)
    have a3 := hs (k + i) (k - 1 + p) (by omega) (by omega)
    have hpos : 0 < t - ev (k - 1) := by
      by_contra hneg
      rw [abs_of_nonpos (not_lt.1 hneg), abs_of_nonpos (by linarith)] at hk
      linarith
    rw [abs_of_pos hpos] at hk
    rw [abs_of_pos (show 0 < t - ev j by linarith), abs_le]
    obtain ⟨b1, b2⟩ := abs_lt.1 hk
    exact ⟨by linarith, by linarith⟩
  · have hk := h3 (by omega)
    have a1 := hs (k + p) j (by omega) (by omega)
    have a2 := hs k (k + i) (by omega) (by omega)
    have a3 := hs (k + i) (k + p) (by omega) (by omega)
    have hne := hd k (by omega)
    have hlt : t ≤ ev (k + p) := by
      by_contra hlt
      rw [abs_of_pos (show 0 < t - ev (k + p) by linarith), abs_of_pos (show 0 < t - ev k by linarith)] at hk
      exact hne (by linarith)
    rw [abs_of_nonpos (show t - ev (k + p) ≤ 0 by linarith)] at hk
    rw [abs_of_nonpos (show t - ev j ≤ 0 by linarith), abs_le]
    obtain ⟨b1, b2⟩ := abs_le.1 hk
    exact ⟨by linarith, by linarith⟩

/-- C80: without that condition the window can stop short of the target: one band, the eigenvalues 1, 1, 5 and the target 5. -/
theorem C80_window_refuted : itarget 5 1 3 (fun i => if i = 2 then 5 else 1) = 0 := by
  unfold itarget
  rw [if_neg (by norm_num)]
  simp only [windowFrom]
  rw [if_neg]
  simp

end Mpb.Davidson

import Verif.Davidson.Lemmas

/-!
# The invariant of the Davidson eigensolver
-/

namespace Mpb.Davidson

open Matrix Mpb.Solver Mpb.Eig

open scoped ComplexOrder

variable {N p : ℕ}

/-- The arguments: a block of at least one band, a Hermitian operator, a constraint that is a projection. -/
structure Good (a : Args N p) : Prop where
  hp : 0 < p
  hA : a.A.IsHermitian
  idem : ∀ C, a.C = some C → C * C = C

/-- LAPACK: Cholesky inversion, square root, eigensolver (for every size).  (The contracts that are proved from those of LAPACK in
`Verif.Mat`.) -/
structure EnvOK (e : Env N p) : Prop where
  inv : CholeskyInv e.inv
  sqrtm : ∀ U : Sq p, U.PosDef → (e.sqrtm U).IsHermitian ∧ e.sqrtm U * e.sqrtm U = U
  heev : ∀ q d, (mat q d).IsHermitian → mat q (e.heev q d).1 * (mat q (e.heev q d).1)ᴴ = 1 ∧ (mat q (e.heev q d).1)ᴴ * mat q (e.heev q d).1 = 1 ∧
    mat q d = (mat q (e.heev q d).1)ᴴ * diagonal (fun i : Fin q => (((e.heev q d).2 i : ℝ) : ℂ)) * mat q (e.heev q d).1 ∧
      ∀ i j, i ≤ j → j < q → (e.heev q d).2 i ≤ (e.heev q d).2 j

/-- A block that satisfies the constraint. -/
def Constrained (a : Args N p) (Y : M N p) : Prop := ∀ C, a.C = some C → C * Y = Y

/-- A block in the space spanned by the first `n` blocks of the basis. -/
def InSpan (V : ℕ → M N p) (n : ℕ) (Z : M N p) : Prop := ∃ B : ℕ → Sq p, Z = ∑ i ∈ Finset.range n, V i * B i

/-- The invariant at the top of the loop. -/
structure Inv (a : Args N p) (hp : 0 < p) (s : St N p) : Prop where
  bound : s.ibasis < nbasis a
  orth : ∀ i < s.ibasis + 1, ∀ j < s.ibasis + 1, (s.V i)ᴴ * s.V j = if i = j then 1 else 0
  constr : ∀ i < s.ibasis + 1, Constrained a (s.V i)
  image : ∀ i < s.ibasis, s.AV i = a.A * s.V i
  vavP : s.vavP = p * s.ibasis
  vav : ∀ x y, x / p ≤ y / p → y < p * s.ibasis → s.vav (x * s.vavP + y) = gram hp a.A s.V x y

theorem constrain_spec {a : Args N p} (g : Good a) (X : M N p) : Constrained a (constrain a X) ∧ (Constrained a X → constrain a X = X) := by
  unfold constrain Constrained
  cases hC : a.C with
  | none => exact ⟨fun C h => (by cases h), fun _ => rfl⟩
  | some C =>
    refine ⟨fun C' h => ?_, fun h => h C rfl⟩
    cases h
    simp only
    rw [← Matrix.mul_assoc, g.idem C hC]

theorem constrained_mul {a : Args N p} {m : ℕ} {Y : M N p} (h : Constrained a Y) (S : Matrix (Fin p) (Fin m) ℂ) :
    ∀ C, a.C = some C → C * (Y * S) = Y * S := by
  intro C hC
  rw [← Matrix.mul_assoc, h C hC]

theorem constrained_stack {a : Args N p} (hp : 0 < p) {V : ℕ → M N p} {q n : ℕ} (hq : q = p * n) (h : ∀ i < n, Constrained a (V i)) :
    ∀ C, a.C = some C → C * stack hp V q = stack hp V q := by
  intro C hC
  rw [mul_stack]
  exact stack_congr hp hq (fun i hi => h i hi C hC)

theorem gram_herm (hp : 0 < p) {A : Matrix (Fin N) (Fin N) ℂ} (hA : A.IsHermitian) (V : ℕ → M N p) (x y : ℕ) :
    (starRingEnd ℂ) (gram hp A V x y) = gram hp A V y x := by
  unfold gram
  have : ((V (y / p))ᴴ * (A * V (x / p))) = ((V (x / p))ᴴ * (A * V (y / p)))ᴴ := by
    rw [conjTranspose_mul, conjTranspose_mul, conjTranspose_conjTranspose, hA.eq, Matrix.mul_assoc]
  rw [this, conjTranspose_apply]
  rfl

/-- Everything the first half of an iteration achieves.  `U` are the eigenvectors of the projected operator. -/
structure RitzOK (a : Args N p) (e : Env N p) (hp : 0 < p) (s : St N p) (w : Ritz N p) : Prop where
  AV : ∀ i < s.ibasis + 1, w.AV i = a.A * s.V i
  vav : ∀ x y, x / p ≤ y / p → x < size p s.ibasis → y < size p s.ibasis → w.vav (x * size p s.ibasis + y) = gram hp a.A s.V x y
  itq : w.it + p ≤ size p s.ibasis
  Y : w.Y = stack hp s.V (size p s.ibasis) * (rows p (size p s.ibasis) w.it w.S)ᴴ
  basis : Spec.RitzBasis a.A 1 w.Y w.vals
  constr : Constrained a w.Y
  /-- all Ritz pairs of the space -/
  full : ∃ (Z : Matrix (Fin N) (Fin (size p s.ibasis)) ℂ) (ev : ℕ → ℝ) (T : Matrix (Fin (size p s.ibasis)) (Fin (size p s.ibasis)) ℂ),
    Spec.RitzBasis a.A 1 Z (fun i => ev i) ∧ stack hp s.V (size p s.ibasis) = Z * T ∧ (∀ i : Fin p, w.vals i = ev (w.it + i)) ∧
      w.it = itarget a.target p (size p s.ibasis) ev

theorem ritz_spec {a : Args N p} {e : Env N p} (g : Good a) (he : EnvOK e) {s : St N p} (I : Inv a g.hp s) :
    ∃ w, ritz a e s = some w ∧ RitzOK a e g.hp s w := by
  have hp := g.hp
  set q := size p s.ibasis with hqd
  have hq : q = p * (s.ibasis + 1) := rfl
  have hpq : p ≤ q := by rw [hq]; exact Nat.le_mul_of_pos_right _ (by omega)
  have hoq : s.vavP ≤ q := by rw [I.vavP, hq]; exact Nat.mul_le_mul_left _ (by omega)
  obtain ⟨d, e1, hd⟩ := newBlocks_spec hp hq a.A s.V (resize s.vavP q (e.junk s.iter) s.vav) (s.ibasis + 1) (le_refl _)
  have hdiv : ∀ {x}, x < q → x / p < s.ibasis + 1 := fun {x} hx => by rw [Nat.div_lt_iff_lt_mul hp, Nat.mul_comm, ← hq]; exact hx
  have hvav : ∀ x y, x / p ≤ y / p → x < q → y < q → d (x * q + y) = gram g.hp a.A s.V x y := by
    intro x y hxy hx hy
    rw [hd x y hx hy]
    by_cases hb : y / p = s.ibasis
    · rw [if_pos ⟨hdiv hx, hb⟩]
    · rw [if_neg (fun h => hb h.2)]
      have hyb : y / p < s.ibasis := by have := hdiv hy; omega
      have hy' : y < p * s.ibasis := by rw [Nat.mul_comm]; exact (Nat.div_lt_iff_lt_mul hp).1 hyb
      have hx' : x < p * s.ibasis := by rw [Nat.mul_comm]; exact (Nat.div_lt_iff_lt_mul hp).1 (by omega)
      rw [resize_spec hoq _ _ (by rw [I.vavP]; exact hx') (by rw [I.vavP]; exact hy'), I.vav x y hxy hy']
  set T := stack g.hp s.V q with hT
  have hTT : Tᴴ * T = 1 := stack_orthonormal hp hq I.orth
  have hmat : mat q (upper2full q d) = Tᴴ * (a.A * T) := by
    ext x y
    rw [hT, stack_gram]
    obtain ⟨m1, m2⟩ := divmod (q := q) (x := (x : ℕ)) (y := (y : ℕ)) y.2
    unfold mat upper2full
    rw [m1, m2]
    by_cases hxy : (y : ℕ) < x
    · rw [if_pos hxy, hvav y x (Nat.div_le_div_right (le_of_lt hxy)) y.2 x.2, gram_herm g.hp g.hA]
    · rw [if_neg hxy, hvav x y (Nat.div_le_div_right (by omega)) x.2 y.2]
  have hHerm : (mat q (upper2full q d)).IsHermitian := by rw [hmat]; exact herm_quad g.hA T
  obtain ⟨v1, v2, v3, v4⟩ := he.heev q _ hHerm
  rw [hmat] at v3
  set S := (e.heev q (upper2full q d)).1 with hS
  set ev := (e.heev q (upper2full q d)).2 with hev
  set it := itarget a.target p q ev with hit
  have hitq : it + p ≤ q := itarget_le _ _ hpq
  have hupd : ∀ i < s.ibasis + 1, Function.update s.AV s.ibasis (a.A * s.V s.ibasis) i = a.A * s.V i := by
    intro i hi
    by_cases h : i = s.ibasis
    · subst h; rw [Function.update_self]
    · rw [Function.update_of_ne h, I.image i (by omega)]
  have hc := combine_eq hp (Nat.succ_pos s.ibasis) hitq hq S s.V (e.junkY s.iter)
  -- all Ritz vectors
  set Z := T * (mat q S)ᴴ with hZ
  have hZ1 : Zᴴ * (1 : Matrix (Fin N) (Fin N) ℂ) * Z = 1 := by
    rw [Matrix.mul_one, hZ, conjTranspose_mul, conjTranspose_conjTranspose]
    rw [show mat q S * Tᴴ * (T * (mat q S)ᴴ) = mat q S * (Tᴴ * T) * (mat q S)ᴴ by simp only [Matrix.mul_assoc], hTT, Matrix.mul_one, v1]
  have hZ2 : Zᴴ * a.A * Z = diagonal (fun i : Fin q => ((ev i : ℝ) : ℂ)) := by
    rw [hZ, conjTranspose_mul, conjTranspose_conjTranspose]
    rw [show mat q S * Tᴴ * a.A * (T * (mat q S)ᴴ) = mat q S * (Tᴴ * (a.A * T)) * (mat q S)ᴴ by simp only [Matrix.mul_assoc], v3]
    rw [show mat q S * ((mat q S)ᴴ * diagonal (fun i : Fin q => ((ev i : ℝ) : ℂ)) * mat q S) * (mat q S)ᴴ =
      (mat q S * (mat q S)ᴴ) * diagonal (fun i : Fin q => ((ev i : ℝ) : ℂ)) * (mat q S * (mat q S)ᴴ) by simp only [Matrix.mul_assoc]]
    rw [v1, Matrix.one_mul, Matrix.mul_one]
  -- the selected ones are columns of Z
  have hsel : T * (rows p q it S)ᴴ = Z.submatrix id (fun i : Fin p => (⟨it + i, by omega⟩ : Fin q)) := by
    ext m r
    rfl
  have hfull : Spec.RitzBasis a.A 1 Z (fun i => ev i) := ⟨hZ1, hZ2, fun i j h => v4 i j h j.2⟩
  have hbasis : Spec.RitzBasis a.A 1 (T * (rows p q it S)ᴴ) (fun i : Fin p => ev (it + i)) := by
    rw [hsel]
    refine ⟨?_, ?_, fun i j h => v4 _ _ (Nat.add_le_add_left h _) (by omega)⟩
    · have : (Z.submatrix id (fun i : Fin p => (⟨it + i, by omega⟩ : Fin q)))ᴴ * (1 : Matrix (Fin N) (Fin N) ℂ) * Z.submatrix id (fun i : Fin p => (⟨it + i, by omega⟩ : Fin q)) =
          (Zᴴ * (1 : Matrix (Fin N) (Fin N) ℂ) * Z).submatrix (fun i : Fin p => (⟨it + i, by omega⟩ : Fin q)) (fun i : Fin p => (⟨it + i, by omega⟩ : Fin q)) := by
        rw [Matrix.mul_one, Matrix.mul_one]; rfl
      rw [this, hZ1]
      ext i j
      simp only [submatrix_apply, Matrix.one_apply, Fin.mk.injEq, Nat.add_left_cancel_iff, Fin.ext_iff]
    · have : (Z.submatrix id (fun i : Fin p => (⟨it + i, by omega⟩ : Fin q)))ᴴ * a.A * Z.submatrix id (fun i : Fin p => (⟨it + i, by omega⟩ : Fin q)) =
          (Zᴴ * a.A * Z).submatrix (fun i : Fin p => (⟨it + i, by omega⟩ : Fin q)) (fun i : Fin p => (⟨it + i, by omega⟩ : Fin q)) := rfl
      rw [this, hZ2]
      ext i j
      simp only [submatrix_apply, Matrix.diagonal_apply, Fin.mk.injEq, Nat.add_left_cancel_iff, Fin.ext_iff]
  refine ⟨⟨_, d, S, it, fun i => ev (it + i), T * (rows p q it S)ᴴ⟩, ?_, ⟨hupd, hvav, hitq, rfl, hbasis, ?_, ?_⟩⟩
  · unfold ritz
    simp only [Function.update_self]
    rw [← hqd, e1]
    simp only [Option.bind_some]
    rw [← hS, ← hev, ← hit, hc]
    rfl
  · intro C hC
    simp only
    rw [← Matrix.mul_assoc, hT, constrained_stack g.hp hq I.constr C hC]
  · refine ⟨Z, ev, mat q S, hfull, ?_, fun i => rfl, rfl⟩
    rw [hZ, Matrix.mul_assoc, v2, Matrix.mul_one]

/-! ## The new direction -/

theorem orthogonalize_spec {a : Args N p} {V : ℕ → M N p} {m : ℕ} (h : ∀ i < m, ∀ j < m, (V i)ᴴ * V j = if i = j then 1 else 0)
    (hC : ∀ i < m, Constrained a (V i)) (W : M N p) (hW : Constrained a W) :
    ∀ n, n ≤ m → (∀ i < n, (V i)ᴴ * orthogonalize V n W = 0) ∧ Constrained a (orthogonalize V n W) := by
  intro n
  induction n with
  | zero => intro _; exact ⟨fun i hi => by omega, hW⟩
  | succ n ih =>
    intro hn
    obtain ⟨h1, h2⟩ := ih (by omega)
    simp only [orthogonalize]
    generalize orthogonalize V n W = X at h1 h2
    refine ⟨fun i hi => ?_, fun C hc => ?_⟩
    · rw [Matrix.mul_sub, ← Matrix.mul_assoc, h i (by omega) n (by omega)]
      by_cases hin : i = n
      · subst hin; rw [if_pos rfl, Matrix.one_mul, sub_self]
      · rw [if_neg hin, Matrix.zero_mul, h1 i (by omega), sub_zero]
    · rw [Matrix.mul_sub, h2 C hc, ← Matrix.mul_assoc, hC n (by omega) C hc]

theorem orthonormalize_spec {a : Args N p} {e : Env N p} (he : EnvOK e) {W X : M N p} (h : orthonormalize e W = some X) :
    Xᴴ * X = 1 ∧ (∃ R : Sq p, IsUnit R ∧ X = W * R) ∧ Function.Injective W.mulVec := by
  unfold orthonormalize at h
  rw [Option.map_eq_some_iff] at h
  obtain ⟨U, hU, rfl⟩ := h
  have hH : (Wᴴ * W).IsHermitian := isHermitian_conjTranspose_mul_self W
  have hpd : (Wᴴ * W).PosDef := by
    by_contra hn
    rw [(he.inv _ hH).2 hn] at hU
    cases hU
  have hU' : U = (Wᴴ * W)⁻¹ := by
    rw [(he.inv _ hH).1 hpd] at hU
    exact (Option.some.inj hU).symm
  subst hU'
  obtain ⟨q1, q2⟩ := he.sqrtm _ hpd.inv
  set R := e.sqrtm (Wᴴ * W)⁻¹ with hR
  have hRH : Rᴴ = R := q1
  have hdet : IsUnit (Wᴴ * W).det := (Matrix.isUnit_iff_isUnit_det _).1 hpd.isUnit
  have hR3 : R * (R * (Wᴴ * W)) = 1 := by rw [← Matrix.mul_assoc, q2, Matrix.nonsing_inv_mul _ hdet]
  refine ⟨?_, ⟨Rᴴ, ?_, rfl⟩, ?_⟩
  · rw [hRH, conjTranspose_mul, hRH]
    rw [show R * Wᴴ * (W * R) = R * (Wᴴ * W) * R by simp only [Matrix.mul_assoc]]
    exact mul_eq_one_comm.1 hR3
  · rw [hRH]; exact IsUnit.of_mul_eq_one _ hR3
  · exact posDef_injective (B := 1) (by rw [Matrix.mul_one]; exact hpd)

theorem expand_spec {a : Args N p} {e : Env N p} (g : Good a) (he : EnvOK e) (hn : 4 ≤ a.nWork) {s s' : St N p} (I : Inv a g.hp s)
    {w : Ritz N p} (R : RitzOK a e g.hp s w) (h : expand a e s w = some s') :
    Inv a g.hp s' ∧ InSpan s'.V (s'.ibasis + 1) w.Y ∧ s'.prevE = energy w.vals ∧ s'.iter = s.iter + 1 ∧ 1 ≤ s'.ibasis := by
  have hp := g.hp
  have hnb : 2 ≤ nbasis a := by unfold nbasis; omega
  set q := size p s.ibasis with hqd
  have hq : q = p * (s.ibasis + 1) := rfl
  unfold expand at h
  simp only at h
  rw [← hqd, combine_eq hp (Nat.succ_pos s.ibasis) R.itq hq] at h
  simp only [Option.bind_some] at h
  have hAY : stack hp w.AV q * (rows p q w.it w.S)ᴴ = a.A * w.Y := by
    rw [R.Y, ← Matrix.mul_assoc, mul_stack]
    congr 1
    exact stack_congr hp hq (fun i hi => R.AV i hi)
  rw [hAY] at h
  rw [Option.map_eq_some_iff] at h
  obtain ⟨X, hX, rfl⟩ := h
  by_cases hr : (s.ibasis + 1) % nbasis a = 0
  · -- restart
    simp only [hr, decide_true, if_true] at hX ⊢
    simp only [Function.update_self, ne_eq, one_ne_zero, not_false_eq_true, Function.update_of_ne, zero_ne_one] at hX ⊢
    set K := constrain a (applyK a (residual (a.A * w.Y) w.Y w.vals) w.Y w.vals) with hK
    have hcY : (w.Y)ᴴ * w.Y = 1 := by have := R.basis.orthonormal; rwa [Matrix.mul_one] at this
    set V1 : ℕ → M N p := Function.update (Function.update (Function.update (Function.update s.V 0 (a.A * w.Y)) 0 w.Y) 1 (a.A * w.Y)) 1
      (residual (a.A * w.Y) w.Y w.vals) with hV1
    have hV10 : V1 0 = w.Y := by rw [hV1]; simp
    obtain ⟨o1, o2⟩ := orthogonalize_spec (a := a) (V := V1) (m := 1)
      (fun i hi j hj => by
        have : i = 0 := by omega
        have : j = 0 := by omega
        subst i; subst j
        rw [hV10, if_pos rfl, hcY]) (fun i hi => by
        have : i = 0 := by omega
        subst i
        rw [hV10]; exact R.constr) K (constrain_spec g _).1 1 (le_refl _)
    obtain ⟨x1, ⟨S, -, x2⟩, -⟩ := orthonormalize_spec (a := a) he hX
    have hYX : (w.Y)ᴴ * X = 0 := by
      have := o1 0 (by omega)
      rw [hV10] at this
      rw [x2, ← Matrix.mul_assoc, this, Matrix.zero_mul]
    have hXY : Xᴴ * w.Y = 0 := by
      have := congrArg conjTranspose hYX
      rwa [conjTranspose_mul, conjTranspose_conjTranspose, conjTranspose_zero] at this
    have f0 : Function.update V1 1 X 0 = w.Y := by rw [Function.update_of_ne (by decide), hV10]
    have f1 : Function.update V1 1 X 1 = X := Function.update_self _ _ _
    refine ⟨⟨by simp only; omega, ?_, ?_, ?_, by simp, ?_⟩, ⟨fun i => if i = 0 then 1 else 0, ?_⟩, by simp, by simp, le_refl _⟩
    · intro i hi j hj
      simp only at hi hj ⊢
      have hi' : i = 0 ∨ i = 1 := by omega
      have hj' : j = 0 ∨ j = 1 := by omega
      rcases hi' with rfl | rfl <;> rcases hj' with rfl | rfl
      · rw [f0, hcY]; rfl
      · rw [f0, f1, hYX]; rfl
      · rw [f0, f1, hXY]; rfl
      · rw [f1, x1]; rfl
    · intro i hi
      simp only at hi ⊢
      have hi' : i = 0 ∨ i = 1 := by omega
      rcases hi' with rfl | rfl
      · rw [f0]; exact R.constr
      · rw [f1, x2]; exact constrained_mul o2 S
    · intro i hi
      simp only at hi ⊢
      have : i = 0 := by omega
      subst this
      rw [f0]
      simp
    · intro x y hxy hy
      simp only [Nat.mul_one] at hy ⊢
      have hy0 : y / p = 0 := Nat.div_eq_of_lt hy
      have hx0 : x / p = 0 := by rw [hy0] at hxy; exact Nat.le_zero.1 hxy
      have hx : x < p := by
        rcases Nat.div_eq_zero_iff.1 hx0 with h | h
        · omega
        · exact h
      obtain ⟨m1, m2⟩ := divmod (q := p) (x := x) (y := y) hy
      have hc : (x * p + y) / p < p ∧ (x * p + y) % p < p := by rw [m1, m2]; exact ⟨hx, hy⟩
      rw [dif_pos hc]
      unfold gram
      rw [hx0, hy0, f0]
      exact congrArg₂ ((w.Y)ᴴ * (a.A * w.Y)) (Fin.ext (by show (_ : ℕ) / p = _; rw [m1]; exact (Nat.mod_eq_of_lt hx).symm))
        (Fin.ext (by show (_ : ℕ) % p = _; rw [m2]; exact (Nat.mod_eq_of_lt hy).symm))
    · simp only
      rw [Finset.sum_range_succ, Finset.sum_range_one, f0]
      simp
  · -- the basis grows
    have hlt : s.ibasis + 1 < nbasis a := by
      rcases Nat.lt_or_ge (s.ibasis + 1) (nbasis a) with h | h
      · exact h
      · exfalso
        apply hr
        have := I.bound
        rw [show s.ibasis + 1 = nbasis a by omega, Nat.mod_self]
    have hmod : (s.ibasis + 1) % nbasis a = s.ibasis + 1 := Nat.mod_eq_of_lt hlt
    have hz : s.ibasis + 1 ≠ 0 := by omega
    simp only [hmod, hz, decide_false, Bool.false_eq_true, if_false] at hX ⊢
    simp only [Function.update_self] at hX ⊢
    set K := constrain a (applyK a (residual (a.A * w.Y) w.Y w.vals) w.Y w.vals) with hK
    set V1 : ℕ → M N p := Function.update (Function.update s.V (s.ibasis + 1) (a.A * w.Y)) (s.ibasis + 1)
      (residual (a.A * w.Y) w.Y w.vals) with hV1
    have hold : ∀ i < s.ibasis + 1, V1 i = s.V i := fun i hi => by
      rw [hV1, Function.update_of_ne (by omega), Function.update_of_ne (by omega)]
    obtain ⟨o1, o2⟩ := orthogonalize_spec (a := a) (V := V1) (m := s.ibasis + 1)
      (fun i hi j hj => by rw [hold i hi, hold j hj]; exact I.orth i hi j hj) (fun i hi => by rw [hold i hi]; exact I.constr i hi) K
      (constrain_spec g _).1 (s.ibasis + 1) (le_refl _)
    obtain ⟨x1, ⟨S, -, x2⟩, -⟩ := orthonormalize_spec (a := a) he hX
    have hVX : ∀ i < s.ibasis + 1, (s.V i)ᴴ * X = 0 := by
      intro i hi
      have := o1 i hi
      rw [hold i hi] at this
      rw [x2, ← Matrix.mul_assoc, this, Matrix.zero_mul]
    have hXV : ∀ i < s.ibasis + 1, Xᴴ * s.V i = 0 := by
      intro i hi
      have := congrArg conjTranspose (hVX i hi)
      rwa [conjTranspose_mul, conjTranspose_conjTranspose, conjTranspose_zero] at this
    have f0 : ∀ i < s.ibasis + 1, Function.update V1 (s.ibasis + 1) X i = s.V i := fun i hi => by
      rw [Function.update_of_ne (by omega), hold i hi]
    have f1 : Function.update V1 (s.ibasis + 1) X (s.ibasis + 1) = X := Function.update_self _ _ _
    refine ⟨⟨hlt, ?_, ?_, ?_, rfl, ?_⟩, ?_, by simp, by simp, by omega⟩
    · intro i hi j hj
      simp only at hi hj ⊢
      by_cases hi' : i = s.ibasis + 1
      · subst hi'
        by_cases hj' : j = s.ibasis + 1
        · subst hj'; rw [f1, x1, if_pos rfl]
        · rw [f1, f0 j (by omega), hXV j (by omega), if_neg (Ne.symm hj')]
      · by_cases hj' : j = s.ibasis + 1
        · subst hj'; rw [f1, f0 i (by omega), hVX i (by omega), if_neg hi']
        · rw [f0 i (by omega), f0 j (by omega)]; exact I.orth i (by omega) j (by omega)
    · intro i hi
      simp only at hi ⊢
      by_cases hi' : i = s.ibasis + 1
      · subst hi'; rw [f1, x2]; exact constrained_mul o2 S
      · rw [f0 i (by omega)]; exact I.constr i (by omega)
    · intro i hi
      simp only at hi ⊢
      rw [f0 i hi]
      have : i ≠ s.ibasis + 1 := by omega
      simp only [Function.update_of_ne this]
      exact R.AV i hi
    · intro x y hxy hy
      simp only at hy ⊢
      have hqx : x < q := by
        have h1 : y / p < s.ibasis + 1 := by rw [Nat.div_lt_iff_lt_mul hp, Nat.mul_comm]; exact hy
        have h2 : x / p < s.ibasis + 1 := by omega
        rw [Nat.div_lt_iff_lt_mul hp, Nat.mul_comm] at h2
        exact h2
      rw [R.vav x y hxy hqx hy]
      have h1 : y / p < s.ibasis + 1 := by rw [Nat.div_lt_iff_lt_mul hp, Nat.mul_comm]; exact hy
      unfold gram
      rw [f0 _ h1, f0 _ (by omega : x / p < s.ibasis + 1)]
    · obtain ⟨Z, -, hZ⟩ := combine_spec hp R.itq hq w.S s.V (e.junkY s.iter) (s.ibasis + 1) (le_refl _)
      refine ⟨fun i => if i < s.ibasis + 1 then (block q (w.it * q + p * i) w.S)ᴴ else 0, ?_⟩
      simp only
      rw [Finset.sum_range_succ, if_neg (by omega), Matrix.mul_zero, add_zero]
      have e1 : w.Y = ∑ i ∈ Finset.range (s.ibasis + 1), s.V i * (block q (w.it * q + p * i) w.S)ᴴ := by
        have hc := combine_eq hp (Nat.succ_pos s.ibasis) R.itq hq w.S s.V (e.junkY s.iter)
        obtain ⟨Z', hc', hZ'⟩ := combine_spec hp R.itq hq w.S s.V (e.junkY s.iter) (s.ibasis + 1) (le_refl _)
        rw [hc] at hc'
        rw [R.Y, Option.some.inj hc', hZ' (by omega)]
      rw [e1]
      refine Finset.sum_congr rfl (fun i hi => ?_)
      have hi' := Finset.mem_range.1 hi
      rw [f0 i hi', if_pos hi']

end Mpb.Davidson

import Verif.Eig.Model

/-!
# Lemmas about one pass through the eigensolver's loop
-/

namespace Mpb.Eig

open Matrix Mpb.Solver

open scoped ComplexOrder

variable {N p : ℕ}

/-- The right-hand operator: `B`, or the identity. -/
def Bm (a : Args N p) : Matrix (Fin N) (Fin N) ℂ := a.B.getD 1

/-- The generalised Rayleigh-quotient trace of the space spanned by a block. -/
noncomputable def Spec.rayleigh (A B : Matrix (Fin N) (Fin N) ℂ) (Y : M N p) : ℝ := ((Yᴴ * A * Y) * (Yᴴ * B * Y)⁻¹).trace.re

theorem rayleigh_mul (A B : Matrix (Fin N) (Fin N) ℂ) (Y : M N p) (S : Sq p) (hS : IsUnit S) :
    Spec.rayleigh A B (Y * S) = Spec.rayleigh A B Y := by
  have hd : IsUnit S.det := (Matrix.isUnit_iff_isUnit_det S).1 hS
  have hd' : IsUnit Sᴴ.det := by
    rw [Matrix.det_conjTranspose]; exact hd.star
  unfold Spec.rayleigh
  have e1 : ∀ T : Matrix (Fin N) (Fin N) ℂ, (Y * S)ᴴ * T * (Y * S) = Sᴴ * ((Yᴴ * T * Y) * S) := by
    intro T
    simp only [conjTranspose_mul, Matrix.mul_assoc]
  rw [e1, e1, Matrix.mul_inv_rev, Matrix.mul_inv_rev]
  rw [show Sᴴ * (Yᴴ * A * Y * S) * (S⁻¹ * (Yᴴ * B * Y)⁻¹ * Sᴴ⁻¹) = Sᴴ * ((Yᴴ * A * Y) * (S * S⁻¹) * (Yᴴ * B * Y)⁻¹ * Sᴴ⁻¹) by
    simp only [Matrix.mul_assoc]]
  rw [Matrix.mul_nonsing_inv _ hd, Matrix.mul_one, Matrix.trace_mul_comm, Matrix.mul_assoc, Matrix.nonsing_inv_mul _ hd', Matrix.mul_one]

theorem herm_quad' {A : Matrix (Fin N) (Fin N) ℂ} (hA : A.IsHermitian) (Y : M N p) : (Yᴴ * A * Y).IsHermitian := by
  rw [Matrix.mul_assoc]; exact herm_quad hA Y

theorem posDef_injective {B : Matrix (Fin N) (Fin N) ℂ} {Y : M N p} (h : (Yᴴ * B * Y).PosDef) : Function.Injective Y.mulVec := by
  have hu := h.isUnit
  intro u v huv
  have : (Yᴴ * B * Y).mulVec u = (Yᴴ * B * Y).mulVec v := by
    simp only [← Matrix.mulVec_mulVec]
    rw [huv]
  exact Matrix.mulVec_injective_of_isUnit hu this

/-! ## Slots -/

theorem put_same (r : ℕ → M N p) (k : ℕ) (x : M N p) : put r k x k = x := by simp [put]

theorem put_ne (r : ℕ → M N p) {k j : ℕ} (x : M N p) (h : j ≠ k) : put r k x j = r j := by simp [put, h]

theorem spoil_ne (a : Args N p) (e : Env N p) (it site : ℕ) (r : ℕ → M N p) {k j : ℕ} (h : j ≠ k) : spoil a e it site k r j = r j := by
  unfold spoil
  split_ifs
  · exact put_ne _ _ h
  · rfl

theorem opA_dst (a : Args N p) (e : Env N p) (it site src dst scr : ℕ) (r : ℕ → M N p) : opA a e it site src dst scr r dst = a.A * r src :=
  put_same _ _ _

theorem opA_ne (a : Args N p) (e : Env N p) (it site src dst scr : ℕ) (r : ℕ → M N p) {j : ℕ} (h : j ≠ dst) (h' : j ≠ scr) :
    opA a e it site src dst scr r j = r j := by
  unfold opA
  rw [put_ne _ _ h, spoil_ne _ _ _ _ _ h']

theorem sD_cases (a : Args N p) : (cg a = true → 3 ≤ sD a) ∧ 2 ≤ sD a ∧ (a.B.isSome → sD a ≠ 3) := by
  unfold sD nB
  refine ⟨fun h => ?_, ?_, fun h => ?_⟩
  · rw [if_pos h]; omega
  · split_ifs <;> omega
  · split_ifs <;> omega

theorem sBY_none {a : Args N p} (h : a.B = none) : sBY a = 0 := by simp [sBY, h]

theorem sBY_some {a : Args N p} {B : Matrix (Fin N) (Fin N) ℂ} (h : a.B = some B) : sBY a = 3 := by simp [sBY, h]

theorem sPrev_cases (a : Args N p) : sPrev a ≠ 0 ∧ sPrev a ≠ 2 ∧ sPrev a ≠ sD a := by
  unfold sPrev sD pr cg
  refine ⟨?_, ?_, ?_⟩ <;> split_ifs <;> simp_all <;> omega

/-! ## What is assumed of the arguments and of LAPACK -/

/-- The operators: `A` Hermitian, `B` positive definite, the constraint a projection.  (Only for the flag
`EIGS_PROJECT_PRECONDITIONING`, which is not among the default flags, does the constraint have to commute with `B`.) -/
structure Good (a : Args N p) : Prop where
  hp : 0 < p
  hA : a.A.IsHermitian
  hB : ∀ B, a.B = some B → B.PosDef
  idem : ∀ C, a.C = some C → C * C = C
  comm : a.fl.project = true → ∀ C B, a.C = some C → a.B = some B → C * B = B * C
  tol : 0 ≤ a.tol

/-- LAPACK: Cholesky inversion, square root, eigensolver.  (The contracts that are proved from those of LAPACK in `Verif.Mat`.) -/
structure EnvOK (e : Env N p) : Prop where
  inv : CholeskyInv e.inv
  sqrtm : ∀ U : Sq p, U.PosDef → (e.sqrtm U).IsHermitian ∧ e.sqrtm U * e.sqrtm U = U
  heev : ∀ S : Sq p, S.IsHermitian → (e.heev S).1 * (e.heev S).1ᴴ = 1 ∧ (e.heev S).1ᴴ * (e.heev S).1 = 1 ∧
    S = (e.heev S).1ᴴ * diagonal (fun i => (((e.heev S).2 i : ℝ) : ℂ)) * (e.heev S).1 ∧ ∀ i j, i ≤ j → (e.heev S).2 i ≤ (e.heev S).2 j

theorem Bm_posDef {a : Args N p} (h : Good a) : (Bm a).PosDef := by
  unfold Bm
  cases hB : a.B with
  | none => simp only [Option.getD_none]; exact Matrix.PosDef.one
  | some B => simp only [Option.getD_some]; exact h.hB B hB

/-- A block that satisfies the constraint. -/
def Constrained (a : Args N p) (Y : M N p) : Prop := ∀ C, a.C = some C → C * Y = Y

theorem constrained_mul {a : Args N p} {Y : M N p} (h : Constrained a Y) (S : Sq p) : Constrained a (Y * S) := by
  intro C hC
  rw [← Matrix.mul_assoc, h C hC]

theorem constrained_add {a : Args N p} {Y Z : M N p} (h : Constrained a Y) (h' : Constrained a Z) (u v : ℂ) : Constrained a (u • Y + v • Z) := by
  intro C hC
  rw [Matrix.mul_add, Matrix.mul_smul, Matrix.mul_smul, h C hC, h' C hC]

theorem constrained_Bm {a : Args N p} (g : Good a) (hf : a.fl.project = true) {Y : M N p} (h : Constrained a Y) : Constrained a (Bm a * Y) := by
  intro C hC
  unfold Bm
  cases hB : a.B with
  | none => simp only [Option.getD_none, Matrix.one_mul]; exact h C hC
  | some B =>
    simp only [Option.getD_some]
    rw [← Matrix.mul_assoc, g.comm hf C B hC hB, Matrix.mul_assoc, h C hC]

theorem constrain_spec (a : Args N p) (g : Good a) (k : ℕ) (r : ℕ → M N p) :
    Constrained a (constrain a k r k) ∧ (Constrained a (r k) → constrain a k r = r) ∧ ∀ j, j ≠ k → constrain a k r j = r j := by
  unfold constrain
  cases hC : a.C with
  | none => exact ⟨fun C h => (by rw [hC] at h; cases h), fun _ => rfl, fun _ _ => rfl⟩
  | some C =>
    refine ⟨?_, ?_, ?_⟩
    · intro C' h
      rw [hC] at h
      cases h
      simp only
      rw [put_same, ← Matrix.mul_assoc, g.idem C hC]
    · intro h
      simp only
      rw [h C hC]
      simp [put]
    · intro j hj
      exact put_ne _ _ hj

/-! ## The preparation -/

theorem opB_spec (a : Args N p) (e : Env N p) (it site : ℕ) (r : ℕ → M N p) :
    opB a e it site 0 (sBY a) 1 r 0 = r 0 ∧ opB a e it site 0 (sBY a) 1 r (sBY a) = Bm a * r 0 ∧
      ∀ k, k ≠ 1 → k ≠ sBY a → opB a e it site 0 (sBY a) 1 r k = r k := by
  unfold opB Bm
  cases hB : a.B with
  | none => simp [sBY_none hB]
  | some B =>
    rw [sBY_some hB]
    refine ⟨?_, ?_, ?_⟩
    · simp only
      rw [put_ne _ _ (by decide), spoil_ne _ _ _ _ _ (by decide)]
    · simp only
      rw [put_same]
      rfl
    · intro k h1 h3
      simp only
      rw [put_ne _ _ h3, spoil_ne _ _ _ _ _ h1]

theorem trace_re_nonneg {S : Sq p} (h : S.PosSemidef) : 0 ≤ S.trace.re := by
  have := h.trace_nonneg
  exact (Complex.le_def.1 this).1

theorem measure_spec (a : Args N p) (e : Env N p) (it site : ℕ) (r : ℕ → M N p) (g : Good a) :
    let m := measure a e it site r
    (∃ c : ℝ, m.1 0 = (c : ℂ) • r 0) ∧ m.1 (sBY a) = Bm a * m.1 0 ∧ m.2 = (m.1 0)ᴴ * Bm a * m.1 0 ∧
      ∀ k, k ≠ 0 → k ≠ 1 → k ≠ sBY a → m.1 k = r k := by
  obtain ⟨h0, h1, h2⟩ := opB_spec a e it site r
  intro m
  have hm : m = measure a e it site r := rfl
  unfold measure at hm
  simp only at hm
  generalize opB a e it site 0 (sBY a) 1 r = r1 at hm h0 h1 h2
  generalize Real.sqrt (((r1 0)ᴴ * r1 (sBY a)).trace.re / (p : ℝ)) = y at hm
  have hS : ∀ Z : M N p, (((1 / y : ℝ) : ℂ) • Z)ᴴ * Bm a * (((1 / y : ℝ) : ℂ) • Z) = ((1 / (y * y) : ℝ) : ℂ) • (Zᴴ * (Bm a * Z)) := by
    intro Z
    rw [conjTranspose_smul, Matrix.smul_mul, Matrix.smul_mul, Matrix.mul_smul, smul_smul, Matrix.mul_assoc]
    congr 1
    rw [RCLike.star_def, Complex.conj_ofReal, ← Complex.ofReal_mul]
    congr 1
    rw [one_div, one_div, mul_inv]
  cases hB : a.B with
  | none =>
    have hs := sBY_none hB
    have hBm : Bm a = 1 := by simp [Bm, hB]
    simp only [hs, hB, Option.isSome_none, Bool.false_eq_true, if_false] at hm h1 h2 ⊢
    rw [hm]
    refine ⟨⟨1 / y, by dsimp only; rw [put_same, h0]⟩, ?_, ?_, ?_⟩
    · simp only; rw [hBm, Matrix.one_mul]
    · simp only; rw [put_same, hS, hBm, Matrix.one_mul]
    · intro k k0 k1 _
      simp only
      rw [put_ne _ _ k0, h2 k k1 k0]
  | some B =>
    have hs := sBY_some hB
    simp only [hs, hB, Option.isSome_some, if_true] at hm h1 h2 ⊢
    rw [hm]
    refine ⟨⟨1 / y, ?_⟩, ?_, ?_, ?_⟩
    · simp only; rw [put_ne _ _ (by decide), put_same, h0]
    · simp only; rw [put_same, put_ne _ _ (by decide : (3 : ℕ) ≠ 0), put_ne _ _ (by decide : (0 : ℕ) ≠ 3), put_same, h1, h0, Matrix.mul_smul]
    · simp only; rw [put_ne _ _ (by decide : (0 : ℕ) ≠ 3), put_same, hS, h1, h0]
    · intro k k0 k1 k3
      simp only
      rw [put_ne _ _ k3, put_ne _ _ k0, h2 k k1 k3]

theorem smul_unit {c : ℂ} (hc : c ≠ 0) : IsUnit (c • (1 : Sq p)) := by
  rw [Matrix.isUnit_iff_isUnit_det, Matrix.det_smul, Matrix.det_one, mul_one]
  exact (pow_ne_zero _ hc).isUnit

theorem scaled_unit {a : Args N p} (g : Good a) {Y Y' : M N p} {c : ℝ} (h : Y' = (c : ℂ) • Y) (hpd : (Y'ᴴ * Bm a * Y').PosDef) :
    ∃ S : Sq p, IsUnit S ∧ Y' = Y * S := by
  by_cases hc : c = 0
  · exfalso
    have hu := hpd.isUnit
    rw [h, hc] at hu
    haveI : Nonempty (Fin p) := ⟨⟨0, g.hp⟩⟩
    simp at hu
  · exact ⟨(c : ℂ) • 1, smul_unit (by exact_mod_cast hc), by rw [h, Matrix.mul_smul, Matrix.mul_one]⟩

theorem sqrtm_unit {e : Env N p} (he : EnvOK e) {U : Sq p} (h : U.PosDef) : IsUnit (e.sqrtm U)ᴴ := by
  obtain ⟨h1, h2⟩ := he.sqrtm U h
  rw [h1]
  have hu := h.isUnit
  rw [← h2, Matrix.isUnit_iff_isUnit_det, Matrix.det_mul] at hu
  rw [Matrix.isUnit_iff_isUnit_det]
  exact isUnit_of_mul_isUnit_left hu

/-- What holds after a successful preparation. -/
structure Prepared (a : Args N p) (s : St N p) (r : ℕ → M N p) (YtBY U : Sq p) : Prop where
  unit : ∃ S : Sq p, IsUnit S ∧ r 0 = s.r 0 * S
  by_ : r (sBY a) = Bm a * r 0
  over : YtBY = (r 0)ᴴ * Bm a * r 0
  pos : YtBY.PosDef
  inv : U = YtBY⁻¹
  frame : ∀ k, k ≠ 0 → k ≠ 1 → k ≠ sBY a → r k = s.r k

theorem prepare_spec {a : Args N p} {e : Env N p} (g : Good a) (he : EnvOK e) (s : St N p) {r : ℕ → M N p} {YtBY U : Sq p} {tr : ℝ}
    (h : prepare a e s = .ok r YtBY U tr) : Prepared a s r YtBY U := by
  have hBH := (Bm_posDef g).isHermitian
  obtain ⟨⟨c, m1⟩, m2, m3, m4⟩ := measure_spec a e s.iter 0 s.r g
  unfold prepare at h
  simp only at h
  have hch : ∀ {S U : Sq p}, S.IsHermitian → e.inv S = some U → S.PosDef ∧ U = S⁻¹ := by
    intro S U hS hU
    by_cases hp : S.PosDef
    · refine ⟨hp, ?_⟩
      have := (he.inv S hS).1 hp
      rw [hU] at this
      exact Option.some.inj this
    · have := (he.inv S hS).2 hp
      rw [hU] at this
      cases this
  split at h
  · cases h
  · rename_i U1 hU1
    have hH1 : (measure a e s.iter 0 s.r).2.IsHermitian := by rw [m3]; exact herm_quad' hBH _
    obtain ⟨p1, i1⟩ := hch hH1 hU1
    split_ifs at h
    · split at h
      · cases h
      · rename_i U2 hU2
        have hUp : U1.PosDef := by rw [i1]; exact p1.inv
        generalize hm : measure a e s.iter 0 s.r = m at h m1 m2 m3 m4 p1 i1 hU1 hH1 hU2
        set r1 := put (put m.1 1 (m.1 0 * (e.sqrtm U1)ᴴ)) 0 (put m.1 1 (m.1 0 * (e.sqrtm U1)ᴴ) 1) with hr1
        have hr10 : r1 0 = m.1 0 * (e.sqrtm U1)ᴴ := by rw [hr1, put_same, put_same]
        obtain ⟨⟨c2, n1⟩, n2, n3, n4⟩ := measure_spec a e s.iter 1 r1 g
        have hH2 : (measure a e s.iter 1 r1).2.IsHermitian := by rw [n3]; exact herm_quad' hBH _
        obtain ⟨p2, i2⟩ := hch hH2 hU2
        generalize measure a e s.iter 1 r1 = q at h n1 n2 n3 n4 p2 i2 hU2 hH2
        simp only [Prep.ok.injEq] at h
        obtain ⟨rfl, rfl, rfl, -⟩ := h
        obtain ⟨S1, u1, e1⟩ := scaled_unit g m1 (by rw [← m3]; exact p1)
        obtain ⟨S2, u2, e2⟩ := scaled_unit g n1 (by rw [← n3]; exact p2)
        refine ⟨⟨S1 * (e.sqrtm U1)ᴴ * S2, (u1.mul (sqrtm_unit he hUp)).mul u2, ?_⟩, n2, n3, p2, i2, ?_⟩
        · rw [e2, hr10, e1]
          simp only [Matrix.mul_assoc]
        · intro k k0 k1 k3
          rw [n4 k k0 k1 k3, hr1, put_ne _ _ k0, put_ne _ _ k1, m4 k k0 k1 k3]
    · generalize measure a e s.iter 0 s.r = m at h m1 m2 m3 m4 p1 i1 hU1 hH1
      simp only [Prep.ok.injEq] at h
      obtain ⟨rfl, rfl, rfl, -⟩ := h
      exact ⟨scaled_unit g m1 (by rw [← m3]; exact p1), m2, m3, p1, i1, m4⟩

/-! ## The trace -/

theorem evalTrace_spec (a : Args N p) (e : Env N p) (it : ℕ) (U : Sq p) (r : ℕ → M N p) (hU : U.IsHermitian) :
    let t := evalTrace a e it U r
    t.2 = (r 0)ᴴ * a.A * r 0 * U ∧ ∀ k, k ≠ 1 → k ≠ 2 → t.1 k = r k := by
  have e0 : opA a e it 2 0 2 1 r 0 = r 0 := opA_ne _ _ _ _ _ _ _ _ (by decide) (by decide)
  have e2 : opA a e it 2 0 2 1 r 2 = a.A * r 0 := opA_dst _ _ _ _ _ _ _ _
  have hU' : Uᴴ = U := hU
  refine ⟨?_, ?_⟩
  · unfold evalTrace
    simp only
    rw [put_ne _ _ (by decide : (0 : ℕ) ≠ 1), put_same, e0, e2, hU']
    simp only [Matrix.mul_assoc]
  · intro k k1 k2
    unfold evalTrace
    simp only
    rw [put_ne _ _ k1, opA_ne _ _ _ _ _ _ _ _ k2 k1]

/-! ## The search direction -/

theorem precond_spec (a : Args N p) (g : Good a) (YtBY U : Sq p) (r : ℕ → M N p) (hBY : r (sBY a) = Bm a * r 0) (hC : Constrained a (r 0)) :
    Constrained a (precond a YtBY U r 2) ∧ ∀ k, k ≠ 2 → precond a YtBY U r k = r k := by
  unfold precond
  generalize hr1 : put r 2 (applyK a (r 1) (r 0) YtBY) = r1
  have h1 : ∀ k, k ≠ 2 → r1 k = r k := fun k hk => by rw [← hr1, put_ne _ _ hk]
  obtain ⟨c1, -, c3⟩ := constrain_spec a g 2 r1
  have hs : sBY a ≠ 2 := by unfold sBY; split_ifs <;> decide
  split_ifs with hf
  · refine ⟨?_, fun k hk => by rw [put_ne _ _ hk, c3 k hk, h1 k hk]⟩
    rw [put_same, c3 _ hs, h1 _ hs, hBY]
    have := constrained_add c1 (constrained_mul (constrained_Bm g hf hC) (U * ((constrain a 2 r1 0)ᴴ * constrain a 2 r1 2))) 1 (-1)
    rwa [one_smul, neg_one_smul, ← sub_eq_add_neg] at this
  · exact ⟨c1, fun k hk => by rw [c3 k hk, h1 k hk]⟩

theorem gammaNum_spec (a : Args N p) (r : ℕ → M N p) : ∀ k, k ≠ 1 → k ≠ sPrev a → (gammaNum a r).1 k = r k := by
  intro k h1 h2
  unfold gammaNum
  split_ifs
  · simp only; rw [put_ne _ _ h2, put_ne _ _ h1]
  · rfl
  · rfl

theorem direction_spec (a : Args N p) (e : Env N p) (g : Good a) (s : St N p) (hist : ℕ → ℝ) (prevTr : ℝ) (YtBY U YtAYU : Sq p) (r : ℕ → M N p)
    (hno : a.fl.orthoPre = false) (hBY : r (sBY a) = Bm a * r 0) (hC : Constrained a (r 0)) (hD : cg a = true → Constrained a (r (sD a)))
    {d : Dir N p} (h : direction a e s hist prevTr YtBY U YtAYU r = some d) : d.r 0 = r 0 ∧ Constrained a (d.r (sD a)) := by
  unfold direction at h
  obtain ⟨q1, q2, q3⟩ := sPrev_cases a
  obtain ⟨s1, s2, -⟩ := sD_cases a
  have hb1 : sBY a ≠ 1 := by unfold sBY; split_ifs <;> decide
  set r1 := gradient a U YtAYU r with hr1
  have g1 : ∀ k, k ≠ 1 → r1 k = r k := fun k hk => by rw [hr1]; exact put_ne _ _ hk
  obtain ⟨c1, c2⟩ := precond_spec a g YtBY U r1 (by rw [g1 _ hb1, g1 _ (by decide), hBY]) (by rw [g1 _ (by decide)]; exact hC)
  have c3 := gammaNum_spec a (precond a YtBY U r1)
  simp only [orthoPre, hno, Bool.false_eq_true, if_false, Option.map_some, Option.some.injEq] at h
  have hg0 : (gammaNum a (precond a YtBY U r1)).1 0 = r 0 := by
    rw [c3 0 (by decide) (Ne.symm q1), c2 0 (by decide), g1 0 (by decide)]
  have hg2 : (gammaNum a (precond a YtBY U r1)).1 2 = precond a YtBY U r1 2 := c3 2 (by decide) (Ne.symm q2)
  split_ifs at h with hcg
  · subst h
    have h3 := s1 hcg
    refine ⟨?_, ?_⟩
    · simp only; rw [put_ne _ _ (by omega), hg0]
    · simp only
      rw [put_same, hg2, c3 (sD a) (by omega) (Ne.symm q3), c2 (sD a) (by omega), g1 _ (by omega)]
      have := constrained_add (hD hcg) c1 (((gammaOf a s hist ((gammaNum a (precond a YtBY U r1)).2 + 0) prevTr).1 * s.dScale : ℝ) : ℂ) 1
      rwa [one_smul] at this
  · subst h
    refine ⟨hg0, ?_⟩
    have hs : sD a = 2 := by unfold sD; rw [if_neg hcg]
    simp only
    rw [hs, hg2]
    exact c1

/-! ## The exact line minimisation -/

theorem exactMin_spec {a : Args N p} {e : Env N p} (g : Good a) (he : EnvOK e) (it : ℕ) {YtAYU YtBY : Sq p} {l l' : Lin N p}
    (hsc : cg a = true ∨ a.scratch = false) (hb : YtBY = (l.r 0)ᴴ * Bm a * l.r 0) (hpos : YtBY.PosDef) (hU : l.U = YtBY⁻¹)
    (hA : YtAYU = (l.r 0)ᴴ * a.A * l.r 0 * l.U) (hprev : |l.prevTheta| ≤ Real.pi) (hD : Constrained a (l.r (sD a)))
    (hY : Constrained a (l.r 0)) (h : exactMin a e it YtAYU.trace.re YtAYU YtBY l = some l') :
    Constrained a (l'.r 0) ∧ (cg a = true → Constrained a (l'.r (sD a))) ∧ |l'.theta| ≤ Real.pi ∧ l'.useLinmin = l.useLinmin ∧
      l'.forceExact = l.forceExact ∧
      (Function.Injective (l'.r 0).mulVec → Spec.rayleigh a.A (Bm a) (l'.r 0) ≤ Spec.rayleigh a.A (Bm a) (l.r 0)) := by
  obtain ⟨s1, s2, s3⟩ := sD_cases a
  have hUH : l.U.IsHermitian := by rw [hU]; exact hpos.isHermitian.inv
  have hdet : IsUnit YtBY.det := (Matrix.isUnit_iff_isUnit_det _).1 hpos.isUnit
  -- the bundles after `BD`
  have hB1 : opB a e it 5 (sD a) (sBD a) 1 l.r 0 = l.r 0 ∧ opB a e it 5 (sD a) (sBD a) 1 l.r (sD a) = l.r (sD a) ∧
      opB a e it 5 (sD a) (sBD a) 1 l.r (sBD a) = Bm a * l.r (sD a) := by
    unfold opB Bm sBD
    cases hB : a.B with
    | none => simp
    | some B =>
      rw [sBY_some hB]
      have hs3 : sD a ≠ 3 := s3 (by rw [hB]; rfl)
      simp only [Option.isSome_some, if_true, Option.getD_some]
      exact ⟨by rw [put_ne _ _ (by decide), spoil_ne _ _ _ _ _ (by decide)], by rw [put_ne _ _ hs3, spoil_ne _ _ _ _ _ (by omega)], put_same _ _ _⟩
  unfold exactMin at h
  simp only at h
  generalize opB a e it 5 (sD a) (sBD a) 1 l.r = r1 at h hB1
  obtain ⟨b0, bD, bBD⟩ := hB1
  by_cases hz : Real.sqrt (trXtY (r1 (sBD a)) (r1 (sD a)) / (p : ℝ)) = 0
  · rw [if_pos hz] at h
    cases h
  · rw [if_neg hz] at h
    generalize Real.sqrt (trXtY (r1 (sBD a)) (r1 (sD a)) / (p : ℝ)) = dS at h hz
    set D' : M N p := ((1 / dS : ℝ) : ℂ) • l.r (sD a) with hD'
    -- after the normalisation
    have hN : ∃ r3, (if a.B.isSome = true then put (put r1 (sD a) (((1 / dS : ℝ) : ℂ) • r1 (sD a))) (sBD a)
          (((1 / dS : ℝ) : ℂ) • put r1 (sD a) (((1 / dS : ℝ) : ℂ) • r1 (sD a)) (sBD a)) else put r1 (sD a) (((1 / dS : ℝ) : ℂ) • r1 (sD a))) = r3 ∧
        r3 0 = l.r 0 ∧ r3 (sD a) = D' ∧ r3 (sBD a) = Bm a * D' := by
      refine ⟨_, rfl, ?_⟩
      cases hB : a.B with
      | none =>
        have hBm : Bm a = 1 := by simp [Bm, hB]
        have hsb : sBD a = sD a := by simp [sBD, hB]
        simp only [Option.isSome_none, Bool.false_eq_true, if_false]
        rw [hsb, put_ne _ _ (by omega), put_same, b0, bD, hBm, Matrix.one_mul]
        exact ⟨rfl, rfl, rfl⟩
      | some B =>
        have hsb : sBD a = 3 := by simp [sBD, hB, sBY]
        have hs3 : sD a ≠ 3 := s3 (by rw [hB]; rfl)
        simp only [Option.isSome_some, if_true]
        rw [hsb] at bBD ⊢
        refine ⟨?_, ?_, ?_⟩
        · rw [put_ne _ _ (by decide), put_ne _ _ (by omega), b0]
        · rw [put_ne _ _ hs3, put_same, bD]
        · rw [put_same, put_ne _ _ (Ne.symm hs3), bBD, hD', Matrix.mul_smul]
    obtain ⟨r3, hr3, n0, nD, nBD⟩ := hN
    rw [hr3] at h
    -- after `A(D, G, Adata, 0, X)`
    have hO : opA a e it 6 (sD a) 1 2 r3 0 = l.r 0 ∧ opA a e it 6 (sD a) 1 2 r3 1 = a.A * D' ∧ opA a e it 6 (sD a) 1 2 r3 (sD a) = D' ∧
        opA a e it 6 (sD a) 1 2 r3 (sBD a) = Bm a * D' := by
      have hsD : opA a e it 6 (sD a) 1 2 r3 (sD a) = D' := by
        rcases hsc with hc | hc
        · have := s1 hc
          rw [opA_ne _ _ _ _ _ _ _ _ (by omega) (by omega), nD]
        · unfold opA spoil
          rw [if_neg (by simp [hc]), put_ne _ _ (by omega), nD]
      refine ⟨by rw [opA_ne _ _ _ _ _ _ _ _ (by decide) (by decide), n0], by rw [opA_dst, nD], hsD, ?_⟩
      cases hB : a.B with
      | none =>
        have hBm : Bm a = 1 := by simp [Bm, hB]
        have hsb : sBD a = sD a := by simp [sBD, hB]
        rw [hsb, hsD, hBm, Matrix.one_mul]
      | some B =>
        have hsb : sBD a = 3 := by simp [sBD, hB, sBY]
        rw [hsb] at nBD ⊢
        rw [opA_ne _ _ _ _ _ _ _ _ (by decide) (by decide), nBD]
    generalize opA a e it 6 (sD a) 1 2 r3 = r4 at h hO
    obtain ⟨o0, o1, oD, oBD⟩ := hO
    rw [o0, o1, oD, oBD] at h
    -- the data for the line search
    set d := dataOf (l.r 0) D' (Bm a * D') (a.A * D') YtAYU YtBY with hd
    have hYtAY : YtAYU * YtBYᴴ = (l.r 0)ᴴ * (a.A * l.r 0) := by
      rw [hA, hpos.isHermitian.eq, hU, Matrix.mul_assoc, Matrix.nonsing_inv_mul _ hdet, Matrix.mul_one, Matrix.mul_assoc]
    have hdd : d = traceData a.A (Bm a) 0 (l.r 0) D' 0 0 := by
      rw [hd]
      unfold dataOf traceData
      rw [hYtAY, hb]
      simp [Matrix.mul_assoc]
    have hUd : d.YtBY⁻¹ = l.U := by rw [hU]; rfl
    have hAd : d.YtAY * d.YtBY⁻¹ = YtAYU := by
      rw [hUd, hA]
      show YtAYU * YtBYᴴ * l.U = _
      rw [hYtAY]
      simp only [Matrix.mul_assoc]
    have hsl : slopeOf d YtAYU l.U = newtonDE d d.YtBY⁻¹ := by
      unfold slopeOf newtonDE
      simp only
      rw [hAd, hUd]
      simp [hd, dataOf]
    have hcu : curvatureOf d YtAYU l.U = newtonD2E d d.YtBY⁻¹ := by
      unfold curvatureOf newtonD2E
      simp only
      rw [hAd, hUd]
      simp [hd, dataOf]
    have hE : YtAYU.trace.re = traceE d d.YtBY⁻¹ := by
      unfold traceE
      rw [hAd]
      simp [hd, dataOf]
    rw [hsl, hcu, hE] at h
    split at h
    · rename_i x nE nd tt hlm
      simp only [Option.some.injEq] at h
      subst h
      have hst : exactStep e.inv a.A (Bm a) 0 (l.r 0) D' 0 0 l.prevTheta a.tol (e.evals + 1) e.work =
          some (Solver.Spec.moved (l.r 0) D' x, 0 * Real.cos x + 0 * Real.sin x, x) := by
        unfold exactStep
        simp only
        rw [← hdd, hlm]
      have hYi : Function.Injective (l.r 0).mulVec := posDef_injective (by rw [← hb]; exact hpos)
      have hmv : ((Real.cos x : ℝ) : ℂ) • l.r 0 + ((Real.sin x : ℝ) : ℂ) • D' = Solver.Spec.moved (l.r 0) D' x := rfl
      have hDc : Constrained a D' := by
        have := constrained_add hD hD ((1 / dS : ℝ) : ℂ) 0
        rwa [zero_smul, add_zero] at this
      have hth : |x| ≤ Real.pi := by
        have hbb := (Linmin.C24_eigensolver (fun t => (traceFunc e.inv d t).getD (0, 0)) e.evals (traceE d d.YtBY⁻¹) (newtonDE d d.YtBY⁻¹)
          (newtonD2E d d.YtBY⁻¹) l.prevTheta a.tol _ e.work (by
            have := C26_start (L := 0) g.hA (Bm_posDef g) (l.r 0) D' 0 0 he.inv hYi
            simp only at this
            rw [← hdd] at this
            simp only [this, Option.getD_some]) g.tol hprev rfl).2 hlm
        exact hbb.1
      refine ⟨?_, ?_, hth, rfl, rfl, ?_⟩
      · simp only
        rw [put_same]
        exact constrained_add hY hDc _ _
      · intro hc
        have := s1 hc
        simp only
        rw [put_ne _ _ (by omega), oD]
        exact hDc
      · simp only
        rw [put_same, hmv]
        intro hi
        have := (C26_step (L := 0) g.hA (Bm_posDef g) (by simp) (l.r 0) D' 0 0 l.prevTheta a.tol e.evals e.work he.inv hYi g.tol hprev hst hi).2.2
        simpa [Spec.rayleigh] using this
    · cases h

end Mpb.Eig

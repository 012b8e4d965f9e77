import Verif.Tensor.Lemmas2
import Mathlib.Tactic.IntervalCases

/-!
# Dielectric tensors: properties C08 - C11
-/

namespace Mpb.Tensor
open Matrix Spec

/-! ## C08: inversion -/

/-- C08: whenever `maxwell_sym_matrix_invert` produces a tensor, it is the two-sided inverse (and Hermitian, being packed). -/
theorem C08_inverse (V W : HMat) (h : hInvert V = .ok W) :
    toMatrix V * toMatrix W = 1 ∧ toMatrix W * toMatrix V = 1 :=
  ⟨hInvert_ok h, mul_eq_one_comm.mp (hInvert_ok h)⟩

/-- C08: it produces one exactly for non-singular tensors. -/
theorem C08_nonsingular (V : HMat) : (∃ W, hInvert V = .ok W) ↔ (toMatrix V).det ≠ 0 := by
  constructor
  · rintro ⟨W, h⟩ h0
    have h1 := congrArg Matrix.det (hInvert_ok h)
    rw [Matrix.det_mul, h0, zero_mul, Matrix.det_one] at h1
    exact zero_ne_one h1
  · exact hInvert_of_det

/-- C08, the error report, partial: a singular tensor that is *not diagonal* stops with the "singular 3x3 matrix" check.
Missing: diagonal singular tensors, for which the claim is false (`C08_singular_refuted`). -/
theorem C08_singular_partial (V : HMat) (hs : (toMatrix V).det = 0) (hd : V.m01 ≠ 0 ∨ V.m02 ≠ 0 ∨ V.m12 ≠ 0) :
    hInvert V = .checkFailed := by
  classical
  have h0 : hDet V = 0 := by
    rw [det_toMatrix] at hs
    exact_mod_cast hs
  unfold hInvert
  rw [if_neg, if_pos h0]
  rintro ⟨a1, a2, b1, b2, c1, c2⟩
  rcases hd with h | h | h
  · exact h (Complex.ext a1 a2)
  · exact h (Complex.ext b1 b2)
  · exact h (Complex.ext c1 c2)

/-- C08 as stated ("reports an error rather than a non-finite tensor for a singular one") is false: every singular diagonal
tensor is divided by zero without any check. -/
theorem C08_singular_refuted :
    ¬ ∀ V : HMat, (toMatrix V).det = 0 → hInvert V = .checkFailed := by
  intro h
  have h1 := h ⟨0, 1, 1, 0, 0, 0⟩ (by rw [det_toMatrix]; simp [hDet, nsq])
  simp [hInvert] at h1

/-- C08 for the default (real) build: it is the Hermitian routine on tensors without imaginary part. -/
theorem C08_real (V : SMat ℝ) :
    hInvert V.toH = match sInvert V with
      | .ok W => .ok W.toH
      | .checkFailed => .checkFailed
      | .nonFinite => .nonFinite := by
  classical
  have hd : hDet V.toH = sDet V := by simp [hDet, sDet, nsq, SMat.toH]; ring
  unfold hInvert sInvert
  rw [hd]
  by_cases h : V.m01 = 0 ∧ V.m02 = 0 ∧ V.m12 = 0
  · rw [if_pos h, if_pos (by simpa [SMat.toH] using h)]
    by_cases h2 : V.m00 = 0 ∨ V.m11 = 0 ∨ V.m22 = 0
    · rw [if_pos h2, if_pos (by simpa [SMat.toH] using h2)]
    · rw [if_neg h2, if_neg (by simpa [SMat.toH] using h2)]
      simp [SMat.toH]
  · rw [if_neg h, if_neg (by simpa [SMat.toH] using h)]
    by_cases h2 : sDet V = 0
    · rw [if_pos h2, if_pos h2]
    · rw [if_neg h2, if_neg h2]
      refine congrArg Res.ok ?_
      ext
      · simp [SMat.toH, nsq]
      · simp [SMat.toH, nsq]
      · simp [SMat.toH, nsq]
      all_goals (apply Complex.ext <;> simp [SMat.toH]; try (left; ring))

/-- Non-vacuity: a non-diagonal, genuinely complex tensor that is inverted. -/
example : ∃ W, hInvert ⟨2, 2, 1, Complex.I, 0, 0⟩ = .ok W := by
  rw [C08_nonsingular, det_toMatrix]
  norm_num [hDet, nsq]

/-- Non-vacuity: a singular non-diagonal tensor. -/
example : hInvert ⟨1, 1, 1, Complex.I, 0, 0⟩ = .checkFailed :=
  C08_singular_partial _ (by rw [det_toMatrix]; norm_num [hDet, nsq]) (Or.inl Complex.I_ne_zero)

/-! ## C09: positive definiteness -/

/-- C09: the test of `maxwell_sym_matrix_positive_definite` is exact. -/
theorem C09_positive_definite (V : HMat) : hPosDef V = true ↔ PosDef V := hPosDef_iff V

/-- C09, default build: the same for real tensors. -/
theorem C09_positive_definite_real (V : SMat ℝ) : sPosDef V = true ↔ PosDef V.toH := by
  rw [← hPosDef_iff]
  unfold sPosDef hPosDef
  rw [decide_eq_true_eq, decide_eq_true_eq]
  simp only [SMat.toH, nsq, Complex.ofReal_re, Complex.ofReal_im]
  have e : ∀ a b : ℝ, a = b → (a > 0 ↔ b > 0) := by rintro a b rfl; rfl
  refine and_congr Iff.rfl (and_congr (e _ _ ?_) (e _ _ ?_)) <;> ring

/-- For real tensors it is enough to test real vectors: `sPosDef` decides `vᵀ V v > 0` for all non-zero real `v`. -/
theorem C09_real_vectors (V : SMat ℝ) : sPosDef V = true ↔
    ∀ a b c : ℝ, (a ≠ 0 ∨ b ≠ 0 ∨ c ≠ 0) →
      0 < V.m00 * a * a + V.m11 * b * b + V.m22 * c * c + 2 * V.m01 * a * b + 2 * V.m02 * a * c + 2 * V.m12 * b * c := by
  rw [C09_positive_definite_real, posDef_iff_quad]
  constructor
  · intro h a b c hne
    have := h a b c (by simpa using hne)
    simp only [quad, SMat.toH, nsq, Complex.ofReal_re, Complex.ofReal_im] at this
    refine lt_of_lt_of_eq this ?_
    ring
  · intro h a b c hne
    have e : quad V.toH a b c =
      (V.m00 * a.re * a.re + V.m11 * b.re * b.re + V.m22 * c.re * c.re + 2 * V.m01 * a.re * b.re +
        2 * V.m02 * a.re * c.re + 2 * V.m12 * b.re * c.re) +
      (V.m00 * a.im * a.im + V.m11 * b.im * b.im + V.m22 * c.im * c.im + 2 * V.m01 * a.im * b.im +
        2 * V.m02 * a.im * c.im + 2 * V.m12 * b.im * c.im) := by
      simp only [quad, SMat.toH, nsq, Complex.ofReal_re, Complex.ofReal_im]; ring
    rw [e]
    have nn : ∀ x y z : ℝ, 0 ≤ V.m00 * x * x + V.m11 * y * y + V.m22 * z * z + 2 * V.m01 * x * y + 2 * V.m02 * x * z +
        2 * V.m12 * y * z := by
      intro x y z
      by_cases hz : x ≠ 0 ∨ y ≠ 0 ∨ z ≠ 0
      · exact (h x y z hz).le
      · push Not at hz
        obtain ⟨rfl, rfl, rfl⟩ := hz
        simp
    by_cases hr : a.re ≠ 0 ∨ b.re ≠ 0 ∨ c.re ≠ 0
    · have := h _ _ _ hr
      have := nn a.im b.im c.im
      linarith
    · have hi : a.im ≠ 0 ∨ b.im ≠ 0 ∨ c.im ≠ 0 := by
        by_contra hi
        push Not at hr hi
        rcases hne with h1 | h1 | h1
        · exact h1 (Complex.ext hr.1 hi.1)
        · exact h1 (Complex.ext hr.2.1 hi.2.1)
        · exact h1 (Complex.ext hr.2.2 hi.2.2)
      have := h _ _ _ hi
      have := nn a.re b.re c.re
      linarith

/-- The tensor does not couple the z axis to the x-y plane. -/
def Spec.PlanarTensor (m : HMat) : Prop := m.m02 = 0 ∧ m.m12 = 0

theorem checkLoop_spec (negOk req : Bool) : ∀ l : List HMat,
    (checkLoop negOk req l = 0 ↔ ∀ m ∈ l, (negOk = true ∨ PosDef m) ∧ (req = true → Spec.PlanarTensor m)) ∧
    (checkLoop negOk req l = 1 ↔ negOk = false ∧ ∃ pre m post, l = pre ++ m :: post ∧ ¬ PosDef m ∧
      ∀ p ∈ pre, PosDef p ∧ (req = true → Spec.PlanarTensor p)) ∧
    (checkLoop negOk req l = 2 ↔ req = true ∧ ∃ pre m post, l = pre ++ m :: post ∧ ¬ Spec.PlanarTensor m ∧
      (negOk = true ∨ PosDef m) ∧ ∀ p ∈ pre, (negOk = true ∨ PosDef p) ∧ Spec.PlanarTensor p) := by
  classical
  intro l
  induction l with
  | nil => simp [checkLoop]
  | cons m l ih =>
    obtain ⟨ih0, ih1, ih2⟩ := ih
    by_cases hA : negOk = false ∧ ¬ PosDef m
    · have hv : checkLoop negOk req (m :: l) = 1 := by
        have : hPosDef m = false := by
          rw [← Bool.not_eq_true, hPosDef_iff]; exact hA.2
        simp [checkLoop, hA.1, this]
      rw [hv]
      refine ⟨?_, ?_, ?_⟩
      · constructor
        · intro h; cases h
        · intro h
          have := (h m (by simp)).1
          simp [hA.1, hA.2] at this
      · constructor
        · intro _
          exact ⟨hA.1, [], m, l, rfl, hA.2, by simp⟩
        · intro _; rfl
      · constructor
        · intro h; cases h
        · rintro ⟨_, pre, m', post, he, _, h2, h3⟩
          cases pre with
          | nil =>
            simp at he
            obtain ⟨rfl, _⟩ := he
            simp [hA.1, hA.2] at h2
          | cons p pre =>
            simp at he
            obtain ⟨rfl, _⟩ := he
            have := (h3 m (by simp)).1
            simp [hA.1, hA.2] at this
    · have hA' : negOk = true ∨ PosDef m := by
        cases negOk <;> simp at hA ⊢
        exact hA
      have hnb : (!negOk && !hPosDef m) = false := by
        rcases hA' with h | h
        · simp [h]
        · simp [(hPosDef_iff m).mpr h]
      by_cases hB : req = true ∧ ¬ Spec.PlanarTensor m
      · have hv : checkLoop negOk req (m :: l) = 2 := by
          simp only [checkLoop, hnb]
          rw [if_neg (by simp), if_pos]
          refine ⟨hB.1, ?_⟩
          by_contra hc
          push Not at hc
          exact hB.2 ⟨Complex.ext hc.1 hc.2.1, Complex.ext hc.2.2.1 hc.2.2.2⟩
        rw [hv]
        refine ⟨?_, ?_, ?_⟩
        · constructor
          · intro h; cases h
          · intro h
            exact absurd ((h m (by simp)).2 hB.1) hB.2
        · constructor
          · intro h; cases h
          · rintro ⟨h1, pre, m', post, he, h2, h3⟩
            cases pre with
            | nil =>
              simp at he
              obtain ⟨rfl, _⟩ := he
              simp [h1, h2] at hA'
            | cons p pre =>
              simp at he
              obtain ⟨rfl, _⟩ := he
              exact absurd ((h3 m (by simp)).2 hB.1) hB.2
        · constructor
          · intro _
            exact ⟨hB.1, [], m, l, rfl, hB.2, hA', by simp⟩
          · intro _; rfl
      · have hB' : req = true → Spec.PlanarTensor m := by
          intro h
          by_contra hc
          exact hB ⟨h, hc⟩
        have hv : checkLoop negOk req (m :: l) = checkLoop negOk req l := by
          simp only [checkLoop, hnb]
          rw [if_neg (by simp), if_neg]
          rintro ⟨h1, h2⟩
          obtain ⟨e1, e2⟩ := hB' h1
          simp [e1, e2] at h2
        rw [hv]
        refine ⟨?_, ?_, ?_⟩
        · rw [ih0]
          simp only [List.mem_cons, forall_eq_or_imp]
          exact ⟨fun h => ⟨⟨hA', hB'⟩, h⟩, fun h => h.2⟩
        · rw [ih1]
          constructor
          · rintro ⟨h1, pre, m', post, he, h2, h3⟩
            refine ⟨h1, m :: pre, m', post, by simp [he], h2, ?_⟩
            simp only [List.mem_cons, forall_eq_or_imp]
            exact ⟨⟨by simpa [h1] using hA', hB'⟩, h3⟩
          · rintro ⟨h1, pre, m', post, he, h2, h3⟩
            cases pre with
            | nil =>
              simp at he
              obtain ⟨rfl, _⟩ := he
              simp [h1, h2] at hA'
            | cons p pre =>
              simp at he
              obtain ⟨rfl, he⟩ := he
              exact ⟨h1, pre, m', post, he, h2, fun p hp => h3 p (by simp [hp])⟩
        · rw [ih2]
          constructor
          · rintro ⟨h1, pre, m', post, he, h2, h3, h4⟩
            refine ⟨h1, m :: pre, m', post, by simp [he], h2, h3, ?_⟩
            simp only [List.mem_cons, forall_eq_or_imp]
            exact ⟨⟨hA', hB' h1⟩, h4⟩
          · rintro ⟨h1, pre, m', post, he, h2, h3, h4⟩
            cases pre with
            | nil =>
              simp at he
              obtain ⟨rfl, _⟩ := he
              exact absurd (hB' h1) h2
            | cons p pre =>
              simp at he
              obtain ⟨rfl, he⟩ := he
              exact ⟨h1, pre, m', post, he, h2, h3, fun p hp => h4 p (by simp [hp])⟩

/-- C09: `check_maxwell_dielectric` accepts (returns 0) exactly when every stored tensor is positive definite (not required
when negative epsilon is allowed) and, in a 2d calculation with a definite z parity, none couples z to the plane.
`parity` is any bit mask; bits 0 and 1 are the z parities. -/
theorem C09_check_accepts (md : MData) (parity : ℕ) (negOk : Bool) :
    checkDielectric md parity negOk = 0 ↔
      ∀ i < md.size, (negOk = true ∨ PosDef (md.heap md.epsInv i)) ∧
        (md.nz = 1 ∧ (parity.testBit 0 = true ∨ parity.testBit 1 = true) → Spec.PlanarTensor (md.heap md.epsInv i)) := by
  have hp : (parity &&& 3 != 0) = true ↔ (parity.testBit 0 = true ∨ parity.testBit 1 = true) := by
    rw [bne_iff_ne]
    constructor
    · intro h
      by_contra hc
      push Not at hc
      apply h
      apply Nat.eq_of_testBit_eq
      intro i
      rw [Nat.testBit_and, Nat.zero_testBit]
      match i with
      | 0 => simp_all
      | 1 => simp_all
      | i + 2 =>
        have : Nat.testBit 3 (i + 2) = false := by
          apply Nat.testBit_lt_two_pow
          calc 3 < 2 ^ 2 := by norm_num
            _ ≤ 2 ^ (i + 2) := Nat.pow_le_pow_right (by norm_num) (by omega)
        rw [this, Bool.and_false]
    · rintro (h | h) h0
      · have := congrArg (fun n => Nat.testBit n 0) h0
        simp only [Nat.testBit_and, Nat.zero_testBit, h] at this
        exact absurd this (by decide)
      · have := congrArg (fun n => Nat.testBit n 1) h0
        simp only [Nat.testBit_and, Nat.zero_testBit, h] at this
        exact absurd this (by decide)
  unfold checkDielectric
  rw [(checkLoop_spec _ _ _).1]
  constructor
  · intro h i hi
    obtain ⟨h1, h2⟩ := h (md.heap md.epsInv i) (by simp; exact ⟨i, hi, rfl⟩)
    refine ⟨h1, fun h3 => h2 ?_⟩
    rw [Bool.and_eq_true, hp]
    exact ⟨by simp [h3.1], h3.2⟩
  · intro h m hm
    simp at hm
    obtain ⟨i, hi, rfl⟩ := hm
    obtain ⟨h1, h2⟩ := h i hi
    refine ⟨h1, fun h3 => h2 ?_⟩
    rw [Bool.and_eq_true, hp] at h3
    exact ⟨by simpa using h3.1, h3.2⟩

/-- C09: code 1 means the first tensor the check objects to (in array order) is not positive definite, code 2 that it couples
z to the plane; no other code is returned. -/
theorem C09_check_codes (md : MData) (parity : ℕ) (negOk : Bool) :
    (checkDielectric md parity negOk = 1 ↔ negOk = false ∧ ∃ i < md.size, ¬ PosDef (md.heap md.epsInv i) ∧
      ∀ j < i, PosDef (md.heap md.epsInv j) ∧
        ((md.nz == 1 && (parity &&& 3 != 0)) = true → Spec.PlanarTensor (md.heap md.epsInv j))) ∧
    (checkDielectric md parity negOk = 2 ↔ (md.nz == 1 && (parity &&& 3 != 0)) = true ∧
      ∃ i < md.size, ¬ Spec.PlanarTensor (md.heap md.epsInv i) ∧ (negOk = true ∨ PosDef (md.heap md.epsInv i)) ∧
      ∀ j < i, (negOk = true ∨ PosDef (md.heap md.epsInv j)) ∧ Spec.PlanarTensor (md.heap md.epsInv j)) ∧
    checkDielectric md parity negOk ≤ 2 := by
  have split_range : ∀ (f : ℕ → HMat) (n : ℕ) (P : HMat → Prop) (Q : HMat → Prop),
      (∃ pre m post, (List.range n).map f = pre ++ m :: post ∧ P m ∧ ∀ p ∈ pre, Q p) ↔
        ∃ i < n, P (f i) ∧ ∀ j < i, Q (f j) := by
    intro f n P Q
    constructor
    · rintro ⟨pre, m, post, he, hP, hQ⟩
      have hlen : pre.length < n := by
        have := congrArg List.length he
        simp at this
        omega
      refine ⟨pre.length, hlen, ?_, ?_⟩
      · have := congrArg (fun l => l[pre.length]?) he
        simp [hlen] at this
        rw [this]; exact hP
      · intro j hj
        have := congrArg (fun l => l[j]?) he
        simp [hj, show j < n by omega] at this
        have h2 := List.getElem?_append_left (l₂ := m :: post) hj
        apply hQ
        have h3 : (f j) = pre[j] := by
          rw [h2, List.getElem?_eq_getElem hj] at this
          exact Option.some.inj this
        rw [h3]
        exact List.getElem_mem hj
    · rintro ⟨i, hi, hP, hQ⟩
      refine ⟨(List.range i).map f, f i, ((List.range n).drop (i + 1)).map f, ?_, hP, ?_⟩
      · have : List.range n = List.range i ++ i :: (List.range n).drop (i + 1) := by
          have h1 := List.take_append_drop i (List.range n)
          rw [List.take_range, Nat.min_eq_left hi.le] at h1
          have h2 : (List.range n).drop i = i :: (List.range n).drop (i + 1) := by
            rw [List.drop_eq_getElem_cons (by simpa using hi)]
            simp
          rw [h2] at h1
          exact h1.symm
        conv_lhs => rw [this]
        simp
      · intro p hp
        simp at hp
        obtain ⟨j, hj, rfl⟩ := hp
        exact hQ j hj
  refine ⟨?_, ?_, ?_⟩
  · unfold checkDielectric
    rw [(checkLoop_spec _ _ _).2.1, split_range]
  · unfold checkDielectric
    rw [(checkLoop_spec _ _ _).2.2]
    constructor
    · rintro ⟨h1, pre, m, post, he, h2, h3, h4⟩
      exact ⟨h1, by
        obtain ⟨i, hi, hP, hQ⟩ := (split_range _ _ (fun m => ¬ Spec.PlanarTensor m ∧ (negOk = true ∨ PosDef m))
          (fun p => (negOk = true ∨ PosDef p) ∧ Spec.PlanarTensor p)).mp ⟨pre, m, post, he, ⟨h2, h3⟩, h4⟩
        exact ⟨i, hi, hP.1, hP.2, hQ⟩⟩
    · rintro ⟨h1, i, hi, h2, h3, h4⟩
      obtain ⟨pre, m, post, he, hP, hQ⟩ := (split_range (md.heap md.epsInv) md.size
        (fun m => ¬ Spec.PlanarTensor m ∧ (negOk = true ∨ PosDef m))
          (fun p => (negOk = true ∨ PosDef p) ∧ Spec.PlanarTensor p)).mpr ⟨i, hi, ⟨h2, h3⟩, h4⟩
      exact ⟨h1, pre, m, post, he, hP.1, hP.2, hQ⟩
  · unfold checkDielectric
    generalize (List.range md.size).map _ = l
    dsimp only
    generalize (md.nz == 1 && (parity &&& 3 != 0)) = req
    induction l with
    | nil => simp [checkLoop]
    | cons m l ih =>
      simp only [checkLoop]
      split
      · omega
      · split
        · omega
        · exact ih

/-- Non-vacuity: a genuinely complex positive definite tensor, and one that is rejected. -/
example : PosDef ⟨2, 2, 1, Complex.I, 0, 0⟩ ∧ ¬ PosDef ⟨1, 1, 1, 2 * Complex.I, 0, 0⟩ := by
  rw [← hPosDef_iff, ← hPosDef_iff]
  constructor <;> norm_num [hPosDef, nsq]

/-- Non-vacuity: the three codes occur. -/
example : ∃ md : MData, checkDielectric md 0 false = 0 ∧ checkDielectric md 1 false = 2 := by
  refine ⟨⟨1, 1, 1, fun _ _ => ⟨2, 2, 2, 0, 1, 0⟩, 0, 0, 0, none, 0⟩, ?_, ?_⟩ <;>
    norm_num [checkDielectric, checkLoop, MData.size, hPosDef, nsq]
example : ∃ md : MData, checkDielectric md 0 false = 1 :=
  ⟨⟨1, 1, 1, fun _ _ => ⟨-2, 2, 2, 0, 1, 0⟩, 0, 0, 0, none, 0⟩, by
    norm_num [checkDielectric, checkLoop, MData.size, hPosDef, nsq]⟩

/-! ## C10: rotation -/

/-- C10: `maxwell_rotation_matrix` of a unit vector is an orthogonal matrix whose first column (axis) is that vector. -/
theorem C10_rotation_matrix (n : V3 ℝ) (h : Spec.Unit n) :
    (rows (rotationMatrix n))ᵀ * rows (rotationMatrix n) = 1 ∧ rows (rotationMatrix n) * (rows (rotationMatrix n))ᵀ = 1 ∧
    (rotationMatrix n).c0 = n := by
  refine ⟨rotation_orthonormal h, mul_eq_one_comm.mp (rotation_orthonormal h), rfl⟩

/-- C10: `maxwell_sym_matrix_rotate` leaves `Rᵀ A R` in its output cell and touches no other cell, also when the output cell is
the input cell, for every real matrix `R`. -/
theorem C10_rotate (mem : ℕ → HMat) (out inp : ℕ) (R : M3 ℝ) :
    toMatrix (rotateMem mem out inp R out) =
      ((rows R).map (fun x : ℝ => (x : ℂ)))ᵀ * toMatrix (mem inp) * (rows R).map (fun x : ℝ => (x : ℂ)) ∧
    ∀ a, a ≠ out → rotateMem mem out inp R a = mem a := by
  constructor
  · rw [← toMatrix_hRotate]
    congr 1
    by_cases h : inp = out
    · subst h
      simp [rotateMem, hRotate]
    · simp [rotateMem, hRotate, h]
  · intro a ha
    simp [rotateMem, ha]

/-- C10: rotating into the frame of a unit normal and back with the swapped (transposed) matrix restores every tensor. -/
theorem C10_round_trip (n : V3 ℝ) (h : Spec.Unit n) (A : HMat) :
    hRotate (hRotate A (rotationMatrix n)) (swapRot (rotationMatrix n)) = A :=
  rotate_back (rotation_orthonormal h) A

/-- C10: rotation keeps positive definiteness. -/
theorem C10_posDef (n : V3 ℝ) (h : Spec.Unit n) (A : HMat) (hA : PosDef A) : PosDef (hRotate A (rotationMatrix n)) :=
  posDef_rotate hA (rotation_orthonormal h)

/-- C10 for the default (real) build. -/
theorem C10_real (A : SMat ℝ) (R : M3 ℝ) : (sRotate A R).toH = hRotate A.toH R := by
  ext
  · simp [sRotate, hRotate, rotateMem, rotatePass, SMat.toH]
  · simp [sRotate, hRotate, rotateMem, rotatePass, SMat.toH]
  · simp [sRotate, hRotate, rotateMem, rotatePass, SMat.toH]
  all_goals (apply Complex.ext <;> simp [sRotate, hRotate, rotateMem, rotatePass, SMat.toH])

/-- Non-vacuity: unit normals on both sides of the branch. -/
example : Spec.Unit ⟨3/5, 4/5, 0⟩ ∧ Spec.Unit ⟨0, 0, 1⟩ := by norm_num [Spec.Unit]

/-! ## C11: Kottke average of two media -/

/-- The interface normal is not the zero vector. -/
def Spec.NonZero (n : V3 ℝ) : Prop := n.x ≠ 0 ∨ n.y ≠ 0 ∨ n.z ≠ 0

theorem sqrt_ne_zero {n : V3 ℝ} (h : Spec.NonZero n) : Real.sqrt (n.x * n.x + n.y * n.y + n.z * n.z) ≠ 0 := by
  apply (Real.sqrt_pos.mpr ?_).ne'
  have h1 := mul_self_nonneg n.x
  have h2 := mul_self_nonneg n.y
  have h3 := mul_self_nonneg n.z
  rcases h with h | h | h
  · have := mul_self_pos.mpr h; linarith
  · have := mul_self_pos.mpr h; linarith
  · have := mul_self_pos.mpr h; linarith

theorem kottke_eq {n : V3 ℝ} (hn : Spec.NonZero n) (f : ℝ) (e1 e2 : HMat) :
    ∃ u : V3 ℝ, ∃ l : ℝ, 0 < l ∧ Spec.Unit u ∧ u = ⟨n.x * l, n.y * l, n.z * l⟩ ∧ kottke f n e1 e2 =
      some (hRotate (untau (avg f (tau (hRotate e1 (rotationMatrix u))) (tau (hRotate e2 (rotationMatrix u)))))
        (swapRot (rotationMatrix u))) := by
  classical
  have hs := sqrt_ne_zero hn
  refine ⟨_, 1 / Real.sqrt (n.x * n.x + n.y * n.y + n.z * n.z), ?_, unit_normalize hs, rfl, ?_⟩
  · have := lt_of_le_of_ne (Real.sqrt_nonneg _) hs.symm
    positivity
  · unfold kottke
    rw [if_neg hs]

/-- C11: the average of two positive definite media is positive definite, for every filling fraction and every normal. -/
theorem C11_posDef (f : ℝ) (h0 : 0 ≤ f) (h1 : f ≤ 1) (n : V3 ℝ) (hn : Spec.NonZero n) (e1 e2 : HMat)
    (p1 : PosDef e1) (p2 : PosDef e2) : ∃ m, kottke f n e1 e2 = some m ∧ PosDef m := by
  obtain ⟨u, l, _, hu, _, hk⟩ := kottke_eq hn f e1 e2
  refine ⟨_, hk, ?_⟩
  have ho := rotation_orthonormal hu
  exact posDef_rotate (posDef_untau (tauPos_avg (tauPos_tau (posDef_rotate p1 ho)) (tauPos_tau (posDef_rotate p2 ho)) h0 h1))
    (swap_orthonormal ho)

/-- C11: two equal media give that medium, whatever the filling fraction (any real number). -/
theorem C11_equal_media (f : ℝ) (n : V3 ℝ) (hn : Spec.NonZero n) (e : HMat) (p : PosDef e) : kottke f n e e = some e := by
  obtain ⟨u, l, _, hu, _, hk⟩ := kottke_eq hn f e e
  have ho := rotation_orthonormal hu
  have hm := ((posDef_iff_schur _).mp (posDef_rotate p ho)).1.ne'
  have : avg f (tau (hRotate e (rotationMatrix u))) (tau (hRotate e (rotationMatrix u))) =
      tau (hRotate e (rotationMatrix u)) := by
    generalize tau (hRotate e (rotationMatrix u)) = t
    unfold avg
    ext
    · ring
    · ring
    · ring
    all_goals (apply Complex.ext <;> simp only <;> ring)
  rw [hk, this, untau_tau _ hm, rotate_back ho]

/-- C11: filling fraction 1 gives the first medium, 0 the second. -/
theorem C11_full_fill (n : V3 ℝ) (hn : Spec.NonZero n) (e1 e2 : HMat) (p1 : PosDef e1) (p2 : PosDef e2) :
    kottke 1 n e1 e2 = some e1 ∧ kottke 0 n e1 e2 = some e2 := by
  constructor
  · obtain ⟨u, l, _, hu, _, hk⟩ := kottke_eq hn 1 e1 e2
    have ho := rotation_orthonormal hu
    have hm := ((posDef_iff_schur _).mp (posDef_rotate p1 ho)).1.ne'
    rw [hk, avg_eq, sub_self, hScale_zero, hAdd_zero, hScale_one, untau_tau _ hm, rotate_back ho]
  · obtain ⟨u, l, _, hu, _, hk⟩ := kottke_eq hn 0 e1 e2
    have ho := rotation_orthonormal hu
    have hm := ((posDef_iff_schur _).mp (posDef_rotate p2 ho)).1.ne'
    rw [hk, avg_eq, sub_zero, hScale_zero, zero_hAdd, hScale_one, untau_tau _ hm, rotate_back ho]

theorem toMatrix_iso (e : ℝ) : toMatrix (iso e) = (e : ℂ) • (1 : Matrix (Fin 3) (Fin 3) ℂ) := by
  ext i j
  fin_cases i <;> fin_cases j <;> simp [toMatrix, iso]

theorem rotate_iso {R : M3 ℝ} (h : (rows R)ᵀ * rows R = 1) (e : ℝ) : hRotate (iso e) R = iso e := by
  apply toMatrix_inj
  rw [toMatrix_hRotate, toMatrix_iso, Matrix.mul_smul, Matrix.mul_one, Matrix.smul_mul, ← Matrix.transpose_map,
    ← map_ofReal_mul, h, map_ofReal_one]

/-- C11: for two isotropic media the average acts as the harmonic mean on the normal direction and as the arithmetic mean on
every direction perpendicular to it. -/
theorem C11_isotropic (f a b : ℝ) (h0 : 0 ≤ f) (h1 : f ≤ 1) (ha : 0 < a) (hb : 0 < b) (n : V3 ℝ) (hn : Spec.NonZero n) :
    ∃ m, kottke f n (iso a) (iso b) = some m ∧
      toMatrix m *ᵥ Spec.col n = ((1 / (f / a + (1 - f) / b) : ℝ) : ℂ) • Spec.col n ∧
      ∀ t : V3 ℝ, n.x * t.x + n.y * t.y + n.z * t.z = 0 →
        toMatrix m *ᵥ Spec.col t = ((f * a + (1 - f) * b : ℝ) : ℂ) • Spec.col t := by
  obtain ⟨u, l, hl, hu, hul, hk⟩ := kottke_eq hn f (iso a) (iso b)
  refine ⟨_, hk, ?_⟩
  have ho := rotation_orthonormal hu
  have ho' : rows (rotationMatrix u) * (rows (rotationMatrix u))ᵀ = 1 := mul_eq_one_comm.mp ho
  have hc : (rotationMatrix u).c0 = u := rfl
  rw [rotate_iso ho, rotate_iso ho]
  generalize rotationMatrix u = R at ho ho' hc
  have hpos : 0 < f / a + (1 - f) / b := by
    rcases h0.lt_or_eq with h | h
    · have h2 : 0 < f / a := div_pos h ha
      have h3 : 0 ≤ (1 - f) / b := div_nonneg (by linarith) hb.le
      linarith
    · subst h
      have : 0 < (1 - 0) / b := by rw [sub_zero]; positivity
      simpa using this
  have hD : untau (avg f (tau (iso a)) (tau (iso b))) =
      ⟨1 / (f / a + (1 - f) / b), f * a + (1 - f) * b, f * a + (1 - f) * b, 0, 0, 0⟩ := by
    ext
    · simp only [untau, avg, tau, iso]
      have e : f * (-1 / a) + (1 - f) * (-1 / b) = -(f / a + (1 - f) / b) := by ring
      rw [e, neg_div_neg_eq]
    · simp [untau, avg, tau, iso, nsq]
    · simp [untau, avg, tau, iso, nsq]
    all_goals (apply Complex.ext <;> simp [untau, avg, tau, iso, nsq, mulConj])
  rw [hD]
  generalize 1 / (f / a + (1 - f) / b) = H
  generalize f * a + (1 - f) * b = M
  have hT : toMatrix (hRotate ⟨H, M, M, 0, 0, 0⟩ (swapRot R)) =
      (M : ℂ) • (1 : Matrix (Fin 3) (Fin 3) ℂ) + ((H - M : ℝ) : ℂ) • vecMulVec (Spec.col u) (Spec.col u) := by
    rw [toMatrix_hRotate, rows_swapRot]
    have e1 : toMatrix ⟨H, M, M, 0, 0, 0⟩ = (M : ℂ) • (1 : Matrix (Fin 3) (Fin 3) ℂ) +
        ((H - M : ℝ) : ℂ) • vecMulVec ![1, 0, 0] ![1, 0, 0] := by
      ext i j
      fin_cases i <;> fin_cases j <;> simp [toMatrix, vecMulVec]
    rw [e1, Matrix.mul_add, Matrix.add_mul, Matrix.mul_smul, Matrix.mul_one, Matrix.smul_mul, Matrix.mul_smul,
      Matrix.smul_mul]
    congr 1
    · rw [← Matrix.transpose_map, ← map_ofReal_mul, Matrix.transpose_transpose, ho', map_ofReal_one]
    · congr 1
      rw [← hc]
      ext i j
      fin_cases i <;> fin_cases j <;>
        simp [rows, Spec.col, vecMulVec, Matrix.mul_apply, Fin.sum_univ_three]
  rw [hT]
  have hun : u.x ^ 2 + u.y ^ 2 + u.z ^ 2 = 1 := hu
  have hl' : l ≠ 0 := hl.ne'
  have hnu : Spec.col n = ((1 / l : ℝ) : ℂ) • Spec.col u := by
    have hlc : (l : ℂ) ≠ 0 := by exact_mod_cast hl'
    rw [hul]
    ext i
    fin_cases i <;> simp [Spec.col] <;> field_simp
  have happ : ∀ t : V3 ℝ, ((M : ℂ) • (1 : Matrix (Fin 3) (Fin 3) ℂ) + ((H - M : ℝ) : ℂ) • vecMulVec (Spec.col u) (Spec.col u)) *ᵥ Spec.col t =
      (M : ℂ) • Spec.col t + (((H - M) * (u.x * t.x + u.y * t.y + u.z * t.z) : ℝ) : ℂ) • Spec.col u := by
    intro t
    ext i
    fin_cases i <;> simp [Spec.col, Matrix.mulVec, dotProduct, Fin.sum_univ_three, vecMulVec] <;> ring
  constructor
  · rw [hnu, Matrix.mulVec_smul, happ]
    have : u.x * u.x + u.y * u.y + u.z * u.z = 1 := by nlinarith
    rw [this, smul_comm]
    congr 1
    rw [← add_smul]
    congr 1
    push_cast
    ring
  · intro t ht
    rw [happ]
    have : u.x * t.x + u.y * t.y + u.z * t.z = 0 := by
      rw [hul]
      simp only
      have e : n.x * l * t.x + n.y * l * t.y + n.z * l * t.z = l * (n.x * t.x + n.y * t.y + n.z * t.z) := by ring
      rw [e, ht, mul_zero]
    rw [this]
    simp

/-- Non-vacuity: hypotheses met by a complex anisotropic medium against vacuum. -/
example : ∃ m, kottke (1/3) ⟨1, 2, 3⟩ ⟨2, 2, 1, Complex.I, 0, 0⟩ (iso 1) = some m ∧ PosDef m := by
  refine C11_posDef _ (by norm_num) (by norm_num) _ (Or.inl (by norm_num)) _ _ ?_ ?_
  · rw [← hPosDef_iff]; norm_num [hPosDef, nsq]
  · rw [← hPosDef_iff]; norm_num [hPosDef, nsq, iso]

end Mpb.Tensor

import Verif.Mat.LapackSpec
import Verif.Mat.Props

/-!
# C116: inverses and generalised eigenvectors through LAPACK
-/

namespace Mpb.Mat
open Spec
open scoped ComplexOrder

theorem cmat_eq (h : Heap) (A : Ptr) (n : ℕ) : cmat h A n n = (mat h A n n n).transpose := by
  ext i j
  change rd h A (i + j * n) = rd h A (j * n + i)
  rw [Nat.add_comm]

theorem triHerm_eq {n : ℕ} (lower : Bool) (M : Matrix (Fin n) (Fin n) ℂ) (hM : M.IsHermitian) : triHerm lower M = M := by
  ext i j
  change (if i = j then ((M i i).re : ℂ) else if Tri lower i j then M i j else (starRingEnd ℂ) (M j i)) = M i j
  by_cases e : i = j
  · subst e
    rw [if_pos rfl]
    exact Complex.conj_eq_iff_re.1 (hM.apply i i)
  · rw [if_neg e]
    split
    · rfl
    · exact hM.apply i j

theorem triHerm_cmat (lower : Bool) (h : Heap) (A : Ptr) (n : ℕ) (hM : (mat h A n n n).IsHermitian) :
    triHerm lower (cmat h A n n) = (mat h A n n n).transpose := by
  rw [cmat_eq]
  exact triHerm_eq _ _ hM.transpose

/-- What the two LAPACK calls of `sqmatrix_invert` leave. -/
theorem invertTri_spec (L : Lapack) (U : SQ) (pd : Bool) (W : SQ) (h : Heap) (hp : 0 < U.p) (hU : (smat h U).IsHermitian)
    (h1 : PotrfOk L U.p U.data U.p) (h2 : PotriOk L U.p U.data U.p) (h3 : HetOk L U.p U.data U.p W.data (W.p * W.p))
    (hW : pd = false → U.p ≤ W.p * W.p ∧ W.data.arr ≠ U.data.arr) :
    ∃ r, invertTri L U pd W h = some r ∧ (r.1 = true ↔ if pd then (smat h U).PosDef else IsUnit (smat h U).det) ∧
      (r.1 = true → IsUnit (smat h U).det ∧ ∀ i j : Fin U.p, j ≤ i → rd r.2 U.data (i + j * U.p) = ((smat h U).transpose)⁻¹ i j) ∧
      ∀ k a, ¬ InBlock U.data U.p U.p U.p k a → (pd = false → k ≠ W.data.arr) → r.2 k a = h k a := by
  have hT := triHerm_cmat true h U.data U.p hU
  cases pd with
  | true =>
    obtain ⟨a1, a2, a3, a4⟩ := h1 hp le_rfl true h
    rw [hT] at a2 a3
    have e2 : (L.potrf true U.p U.data U.p h).2 = 0 ↔ (smat h U).PosDef := a2.trans Matrix.PosDef.transpose_iff
    have eg : gluePotrf L true U.p U.data U.p h = some (decide ((L.potrf true U.p U.data U.p h).2 = 0), (L.potrf true U.p U.data U.p h).1) := if_pos a1
    by_cases hi : (L.potrf true U.p U.data U.p h).2 = 0
    · have hpd := e2.1 hi
      have hdet : IsUnit (smat h U).det := (Matrix.isUnit_iff_isUnit_det _).1 hpd.isUnit
      have hdet' : IsUnit (smat h U).transpose.det := by rwa [Matrix.det_transpose]
      obtain ⟨b1, b2, b3⟩ := h2 hp le_rfl true (L.potrf true U.p U.data U.p h).1 (by rw [a3 hi]; exact hdet')
      refine ⟨(true, (L.potri true U.p U.data U.p (L.potrf true U.p U.data U.p h).1).1), ?_, ?_, fun _ => ⟨hdet, fun i j hij => ?_⟩, fun k a hk _ => ?_⟩
      · simp only [invertTri, if_true]
        rw [eg]
        simp only [Option.bind_some, hi, decide_true, if_true]
        refine (if_pos b1.ge).trans ?_
        exact congrArg some (Prod.ext (decide_eq_true b1) rfl)
      · simpa using hpd
      · have := b2 i j (by simpa [Tri] using hij)
        rw [a3 hi] at this
        exact this
      · exact (b3 k a hk).trans (a4 k a hk)
    · refine ⟨(false, (L.potrf true U.p U.data U.p h).1), ?_, ?_, fun e => by simp at e, fun k a hk _ => a4 k a hk⟩
      · simp only [invertTri, if_true]
        rw [eg]
        simp [hi]
      · simpa using fun hc => hi (e2.2 hc)
  | false =>
    obtain ⟨w1, w2⟩ := hW rfl
    obtain ⟨a1, a2, a3, a4⟩ := h3 hp le_rfl w1 (by omega) w2 true h
    rw [hT] at a2 a4
    have e2 : (L.hetrf true U.p U.data U.p W.data (W.p * W.p) h).2 = 0 ↔ IsUnit (smat h U).det := by
      rw [a2, Matrix.det_transpose]
      rfl
    have eg : glueHetrf L true U.p U.data U.p W.data (W.p * W.p) h = some (decide ((L.hetrf true U.p U.data U.p W.data (W.p * W.p) h).2 = 0),
        (L.hetrf true U.p U.data U.p W.data (W.p * W.p) h).1) := if_pos a1
    by_cases hi : (L.hetrf true U.p U.data U.p W.data (W.p * W.p) h).2 = 0
    · obtain ⟨b1, b2, b3⟩ := a4 hi
      refine ⟨(true, (L.hetri true U.p U.data U.p (L.hetrf true U.p U.data U.p W.data (W.p * W.p) h).1.2 W.data
        (L.hetrf true U.p U.data U.p W.data (W.p * W.p) h).1.1).1), ?_, ?_, fun _ => ⟨e2.1 hi, fun i j hij => ?_⟩, fun k a hk hw => ?_⟩
      · simp only [invertTri, Bool.false_eq_true, if_false]
        rw [if_pos w1, eg]
        simp only [Option.bind_some, hi, decide_true, if_true]
        refine (if_pos b1.ge).trans ?_
        exact congrArg some (Prod.ext (decide_eq_true b1) rfl)
      · simpa using e2.1 hi
      · exact b2 i j (by simpa [Tri] using hij)
      · exact b3 k a hk (hw rfl)
    · refine ⟨(false, (L.hetrf true U.p U.data U.p W.data (W.p * W.p) h).1.1), ?_, ?_, fun e => by simp at e, fun k a hk hw => a3 k a hk (hw rfl)⟩
      · simp only [invertTri, Bool.false_eq_true, if_false]
        rw [if_pos w1, eg]
        simp [hi]
      · simp only [Bool.false_eq_true, if_false, false_iff]
        exact fun hc => hi (e2.2 hc)

/-- C116: with the flag `positive_definite`, `sqmatrix_invert` of a Hermitian matrix returns 1 exactly if the matrix is positive definite; without it
(and with a large enough scratch matrix), exactly if it is regular.  When it returns 1, `U` holds the inverse.  Nothing but `U` (and the scratch matrix
when the flag is not set) changes in either case. -/
theorem C116_invert (L : Lapack) (U : SQ) (pd : Bool) (W : SQ) (h : Heap) (hp : 0 < U.p) (hU : (smat h U).IsHermitian)
    (h1 : PotrfOk L U.p U.data U.p) (h2 : PotriOk L U.p U.data U.p) (h3 : HetOk L U.p U.data U.p W.data (W.p * W.p))
    (hW : pd = false → U.p ≤ W.p * W.p ∧ W.data.arr ≠ U.data.arr) :
    ∃ r, sqInvertL L U pd W h = some r ∧ (r.1 = true ↔ if pd then (smat h U).PosDef else IsUnit (smat h U).det) ∧
      (r.1 = true → smat r.2 U = (smat h U)⁻¹ ∧ smat r.2 U * smat h U = 1) ∧
      ∀ k a, ¬ InBlock U.data U.p U.p U.p k a → (pd = false → k ≠ W.data.arr) → r.2 k a = h k a := by
  obtain ⟨r, e, e1, e2, e3⟩ := invertTri_spec L U pd W h hp hU h1 h2 h3 hW
  refine ⟨if r.1 then (true, mirrorUpper U.data U.p r.2) else r, ?_, ?_, ?_, ?_⟩
  · rw [sqInvertL, e, Option.map_some]
  · rw [← e1]
    cases hr : r.1 <;> simp [hr]
  · cases hr : r.1 with
    | false => simp [hr]
    | true =>
      intro _
      obtain ⟨d1, d2⟩ := e2 hr
      simp only [if_true]
      obtain ⟨m1, m2, m3⟩ := mirrorUpper_spec U.data U.p r.2
      have hinv : ((smat h U)⁻¹).IsHermitian := hU.inv
      have hup : ∀ i j : Fin U.p, i ≤ j → mat r.2 U.data U.p U.p U.p i j = (smat h U)⁻¹ i j := by
        intro i j hij
        have := d2 j i hij
        rw [← Matrix.transpose_nonsing_inv, Matrix.transpose_apply] at this
        change rd r.2 U.data (i * U.p + j) = _
        rw [Nat.add_comm]
        exact this
      have hm : smat (mirrorUpper U.data U.p r.2) U = (smat h U)⁻¹ := by
        ext i j
        rcases le_or_gt i j with hij | hij
        · exact (m1 i j hij).trans (hup i j hij)
        · refine (m2 j i hij).trans ?_
          rw [hup j i hij.le]
          exact hinv.apply i j
      exact ⟨hm, by rw [hm]; exact Matrix.nonsing_inv_mul _ d1⟩
  · intro k a hk hw
    cases hr : r.1 with
    | false =>
      simp only [Bool.false_eq_true, if_false]
      exact e3 k a hk hw
    | true =>
      simp only [if_true]
      exact ((mirrorUpper_spec U.data U.p r.2).2.2 k a hk).trans (e3 k a hk hw)

/-- C116: without the flag, a scratch matrix with fewer entries than `U` has rows stops the program. -/
theorem C116_scratch (L : Lapack) (U W : SQ) (h : Heap) (hW : W.p * W.p < U.p) : sqInvertL L U false W h = none := by
  rw [sqInvertL, invertTri]
  simp only [Bool.false_eq_true, if_false]
  rw [if_neg (by omega)]
  rfl

/-- C116: `sqmatrix_gen_eigensolve` of a Hermitian `U` with a positive definite metric `B` leaves in the rows of `U'` the (conjugated) eigenvectors of `U x = λ B x`,
normalised with the metric, with ascending eigenvalues; with any other metric the program stops.  Only `U`, `B` and the work matrix change. -/
theorem C116_gen_eigensolve (L : Lapack) (U B W : SQ) (fresh : Ptr) (h : Heap) (hp : 0 < U.p) (hB : B.p = U.p)
    (hL : ∀ X n, HegvOk L U.p U.data U.p B.data U.p X n) (dU : U.data.arr ≠ B.data.arr) (dW : W.data.arr ≠ U.data.arr) (dW' : W.data.arr ≠ B.data.arr)
    (dF : fresh.arr ≠ U.data.arr) (dF' : fresh.arr ≠ B.data.arr) (hU : (smat h U).IsHermitian) (hBH : (mat h B.data U.p U.p U.p).IsHermitian) :
    ((mat h B.data U.p U.p U.p).PosDef → ∃ r, sqGenEigensolve L U (some B) W fresh h = some r ∧
      smat h U * (smat r.1 U).conjTranspose = mat h B.data U.p U.p U.p * (smat r.1 U).conjTranspose * Matrix.diagonal (fun i : Fin U.p => (r.2 i : ℂ)) ∧
      smat r.1 U * mat h B.data U.p U.p U.p * (smat r.1 U).conjTranspose = 1 ∧ (∀ i j : Fin U.p, i ≤ j → r.2 i ≤ r.2 j) ∧
      ∀ k a, ¬ InBlock U.data U.p U.p U.p k a → ¬ InBlock B.data U.p U.p U.p k a → k ≠ W.data.arr → k ≠ fresh.arr → r.1 k a = h k a) ∧
    (¬ (mat h B.data U.p U.p U.p).PosDef → sqGenEigensolve L U (some B) W fresh h = none) := by
  have key : ∀ X n, X.arr ≠ U.data.arr → X.arr ≠ B.data.arr → 2 * U.p - 1 ≤ n → (X.arr = W.data.arr ∨ X.arr = fresh.arr) →
      ((mat h B.data U.p U.p U.p).PosDef → ∃ r, glueHegv L true U.p U.data B.p B.data U.p X n h = some r ∧
      smat h U * (smat r.1 U).conjTranspose = mat h B.data U.p U.p U.p * (smat r.1 U).conjTranspose * Matrix.diagonal (fun i : Fin U.p => (r.2 i : ℂ)) ∧
      smat r.1 U * mat h B.data U.p U.p U.p * (smat r.1 U).conjTranspose = 1 ∧ (∀ i j : Fin U.p, i ≤ j → r.2 i ≤ r.2 j) ∧
      ∀ k a, ¬ InBlock U.data U.p U.p U.p k a → ¬ InBlock B.data U.p U.p U.p k a → k ≠ W.data.arr → k ≠ fresh.arr → r.1 k a = h k a) ∧
    (¬ (mat h B.data U.p U.p U.p).PosDef → glueHegv L true U.p U.data B.p B.data U.p X n h = none) := by
    intro X n x1 x2 hn hX
    obtain ⟨a1, a2, a3, a4⟩ := hL X n hp le_rfl hp le_rfl (by omega) hn dU x1 x2 true h
    rw [triHerm_cmat true h U.data U.p hU, triHerm_cmat true h B.data U.p hBH] at a3
    rw [triHerm_cmat true h B.data U.p hBH, Matrix.PosDef.transpose_iff] at a2
    simp only [glueHegv, swapUplo, hB]
    generalize L.hegv true U.p U.data U.p B.data U.p X n h = r at *
    constructor
    · intro hpd
      obtain ⟨b1, b2, b3⟩ := a3 (a2.2 hpd)
      refine ⟨r.1, if_pos ⟨a1, (a2.2 hpd).le⟩, ?_, ?_, b3, fun k a k1 k2 k3 k4 => a4 k a k1 k2 (by rcases hX with e | e <;> rw [e] <;> assumption)⟩
      · rw [cmat_eq] at b2
        have e := congrArg Matrix.conjTranspose (congrArg Matrix.transpose b2)
        rw [Matrix.transpose_mul, Matrix.transpose_mul, Matrix.transpose_mul, Matrix.transpose_transpose, Matrix.transpose_transpose, Matrix.transpose_transpose,
          Matrix.diagonal_transpose, Matrix.conjTranspose_mul, Matrix.conjTranspose_mul, Matrix.conjTranspose_mul, hBH.eq, Matrix.diagonal_conjTranspose] at e
        have hU' : (mat h U.data U.p U.p U.p).conjTranspose = mat h U.data U.p U.p U.p := hU
        rw [hU'] at e
        refine e.trans ?_
        congr 2
        ext i
        exact Complex.conj_ofReal _
      · rw [cmat_eq] at b1
        have e := congrArg Matrix.transpose b1
        rw [Matrix.transpose_mul, Matrix.transpose_mul, Matrix.transpose_transpose, Matrix.transpose_transpose, Matrix.transpose_one, ← Matrix.mul_assoc] at e
        exact e
    · intro hnp
      rw [if_neg]
      intro hc
      exact hnp (a2.1 (le_antisymm hc.2 hc.1))
  have hz : decide ((W.p : ℤ) * W.p ≥ 3 * U.p - 1) = true → 2 * U.p - 1 ≤ W.p * W.p := by
    intro hc
    have := of_decide_eq_true hc
    zify
    push_cast [Nat.cast_sub (show 1 ≤ 2 * U.p by omega)]
    have : (0 : ℤ) < U.p := by exact_mod_cast hp
    linarith
  simp only [sqGenEigensolve]
  rw [if_pos hB]
  by_cases hc : decide ((W.p : ℤ) * W.p ≥ 3 * U.p - 1) = true
  · rw [if_pos hc, if_pos hc]
    exact key _ _ dW dW' (hz hc) (Or.inl rfl)
  · rw [if_neg hc, if_neg hc]
    exact key _ _ dF dF' (by omega) (Or.inr rfl)

/-- C116: the documented identity holds with the metric: `U = (B U'^H) D (U' B)`. -/
theorem C116_decomposition (L : Lapack) (U B W : SQ) (fresh : Ptr) (h : Heap) (hp : 0 < U.p) (hB : B.p = U.p)
    (hL : ∀ X n, HegvOk L U.p U.data U.p B.data U.p X n) (dU : U.data.arr ≠ B.data.arr) (dW : W.data.arr ≠ U.data.arr) (dW' : W.data.arr ≠ B.data.arr)
    (dF : fresh.arr ≠ U.data.arr) (dF' : fresh.arr ≠ B.data.arr) (hU : (smat h U).IsHermitian) (hBP : (mat h B.data U.p U.p U.p).PosDef) :
    ∃ r, sqGenEigensolve L U (some B) W fresh h = some r ∧
      smat h U = mat h B.data U.p U.p U.p * (smat r.1 U).conjTranspose * Matrix.diagonal (fun i : Fin U.p => (r.2 i : ℂ)) * (smat r.1 U * mat h B.data U.p U.p U.p) := by
  obtain ⟨r, e, e1, e2, _⟩ := (C116_gen_eigensolve L U B W fresh h hp hB hL dU dW dW' dF dF' hU hBP.isHermitian).1 hBP
  refine ⟨r, e, ?_⟩
  have e3 : (smat r.1 U).conjTranspose * (smat r.1 U * mat h B.data U.p U.p U.p) = 1 := mul_eq_one_comm.1 e2
  rw [← e1, Matrix.mul_assoc, e3, Matrix.mul_one]

/-- C116: without a metric the rows of `U'` are orthonormal eigenvectors, and `U = U'^H D U'`. -/
theorem C116_eigensolve (L : Lapack) (U W : SQ) (fresh : Ptr) (h : Heap) (hp : 0 < U.p)
    (hL : ∀ X n, HeevOk L U.p U.data U.p X n) (dW : W.data.arr ≠ U.data.arr) (dF : fresh.arr ≠ U.data.arr) (hU : (smat h U).IsHermitian) :
    ∃ r, sqGenEigensolve L U none W fresh h = some r ∧
      smat h U = (smat r.1 U).conjTranspose * Matrix.diagonal (fun i : Fin U.p => (r.2 i : ℂ)) * smat r.1 U ∧
      smat r.1 U * (smat r.1 U).conjTranspose = 1 ∧ (∀ i j : Fin U.p, i ≤ j → r.2 i ≤ r.2 j) ∧
      ∀ k a, ¬ InBlock U.data U.p U.p U.p k a → k ≠ W.data.arr → k ≠ fresh.arr → r.1 k a = h k a := by
  have key : ∀ X n, X.arr ≠ U.data.arr → 2 * U.p - 1 ≤ n → (X.arr = W.data.arr ∨ X.arr = fresh.arr) →
      ∃ r, glueHeev L true U.p U.data U.p X n h = some r ∧
      smat h U = (smat r.1 U).conjTranspose * Matrix.diagonal (fun i : Fin U.p => (r.2 i : ℂ)) * smat r.1 U ∧
      smat r.1 U * (smat r.1 U).conjTranspose = 1 ∧ (∀ i j : Fin U.p, i ≤ j → r.2 i ≤ r.2 j) ∧
      ∀ k a, ¬ InBlock U.data U.p U.p U.p k a → k ≠ W.data.arr → k ≠ fresh.arr → r.1 k a = h k a := by
    intro X n x1 hn hX
    obtain ⟨a1, a2, a3, a4, a5⟩ := hL X n hp le_rfl (by omega) hn x1 true h
    rw [triHerm_cmat true h U.data U.p hU] at a3
    have eg : glueHeev L true U.p U.data U.p X n h = some (L.heev true U.p U.data U.p X n h).1 := if_pos ⟨a1.ge, a1.le⟩
    rw [eg]
    clear eg
    generalize L.heev true U.p U.data U.p X n h = r at *
    rw [cmat_eq] at a2 a3
    have e1 : smat r.1.1 U * (smat r.1.1 U).conjTranspose = 1 := by
      have e := congrArg Matrix.transpose a2
      rw [Matrix.transpose_mul, Matrix.transpose_transpose, Matrix.transpose_one] at e
      exact e
    have e2 : smat r.1.1 U * smat h U = Matrix.diagonal (fun i : Fin U.p => (r.1.2 i : ℂ)) * smat r.1.1 U := by
      have e := congrArg Matrix.transpose a3
      rw [Matrix.transpose_mul, Matrix.transpose_mul, Matrix.transpose_transpose, Matrix.transpose_transpose, Matrix.diagonal_transpose] at e
      exact e
    refine ⟨r.1, rfl, ?_, e1, a4, fun k a k1 k3 k4 => a5 k a k1 (by rcases hX with e | e <;> rw [e] <;> assumption)⟩
    rw [Matrix.mul_assoc, ← e2, ← Matrix.mul_assoc, mul_eq_one_comm.1 e1, Matrix.one_mul]
  simp only [sqGenEigensolve]
  by_cases hc : decide ((W.p : ℤ) * W.p ≥ 3 * U.p - 1) = true
  · rw [if_pos hc, if_pos hc]
    have := of_decide_eq_true hc
    refine key _ _ dW ?_ (Or.inl rfl)
    zify
    push_cast [Nat.cast_sub (show 1 ≤ 2 * U.p by omega)]
    have : (0 : ℤ) < U.p := by exact_mod_cast hp
    linarith
  · rw [if_neg hc, if_neg hc]
    exact key _ _ dF (by omega) (Or.inr rfl)

/-- The two calls of `sqmatrix_invert` with `positive_definite`, as the parameter of `sqInvert`. -/
def potLapack (L : Lapack) (W : SQ) (P : Ptr) (p : ℕ) (h : Heap) : Option Heap :=
  (invertTri L ⟨p, p, P⟩ true W h).bind fun r => if r.1 then some r.2 else none

/-- The assumption under which `C22_invert` (and the solver's theorems) are stated follows from what LAPACK promises. -/
theorem potLapack_contract (L : Lapack) (W : SQ) (P : Ptr) (p : ℕ) (h : Heap) (hp : 0 < p) (h1 : PotrfOk L p P p) (h2 : PotriOk L p P p)
    (h3 : HetOk L p P p W.data (W.p * W.p)) : InvContract (potLapack L W) P p h := by
  intro h' e hU
  obtain ⟨r, f, f1, f2, f3⟩ := invertTri_spec L ⟨p, p, P⟩ true W h hp hU h1 h2 h3 (fun e => by simp at e)
  rw [potLapack, f, Option.bind_some] at e
  by_cases hr : r.1 = true
  · rw [if_pos hr, Option.some_inj] at e
    subst e
    exact ⟨(f2 hr).1, (f2 hr).2, fun k a hk => f3 k a hk (fun e => by simp at e)⟩
  · rw [if_neg hr] at e
    simp at e

/-- A one-by-one LAPACK. -/
noncomputable def lapack1 : Lapack where
  potrf _ _ A _ h := if 0 < (rd h A 0).re then (wr h A 0 ((Real.sqrt (rd h A 0).re : ℝ) : ℂ), 0) else (h, 1)
  potri _ _ A _ h := (wr h A 0 (rd h A 0 * (starRingEnd ℂ) (rd h A 0))⁻¹, 0)
  hetrf _ _ A _ _ _ h := ((h, fun _ => 1), if (rd h A 0).re = 0 then 1 else 0)
  hetri _ _ A _ _ _ h := (wr h A 0 (((rd h A 0).re : ℂ)⁻¹), 0)
  hegv _ _ A _ B _ _ _ h := if 0 < (rd h B 0).re then
      ((wr h A 0 (((Real.sqrt (rd h B 0).re)⁻¹ : ℝ) : ℂ), fun _ => (rd h A 0).re / (rd h B 0).re), 0) else ((h, fun _ => 0), 2)
  heev _ _ A _ _ _ h := ((wr h A 0 1, fun _ => (rd h A 0).re), 0)

theorem one_ext {M N : Matrix (Fin 1) (Fin 1) ℂ} (h : M 0 0 = N 0 0) : M = N := by
  ext i j
  rw [Subsingleton.elim i 0, Subsingleton.elim j 0]
  exact h

theorem triHerm_one (lower : Bool) (h : Heap) (A : Ptr) (ld : ℕ) : triHerm lower (cmat h A ld 1) 0 0 = ((rd h A 0).re : ℂ) := by
  simp [triHerm, cmat]

theorem cholesky_one (lower : Bool) (h : Heap) (A : Ptr) (ld : ℕ) :
    cholesky lower (cmat h A ld 1) 0 0 = rd h A 0 * (starRingEnd ℂ) (rd h A 0) := by
  have h1 : tri lower (cmat h A ld 1) 0 0 = rd h A 0 := by
    change (if Tri lower (0 : Fin 1) 0 then rd h A (0 + 0 * ld) else 0) = _
    rw [if_pos (by cases lower <;> simp [Tri])]
    simp
  cases lower
  · simp only [cholesky, Bool.false_eq_true, if_false, Matrix.mul_apply, Fin.sum_univ_one, Matrix.conjTranspose_apply, h1]
    exact mul_comm _ _
  · simp only [cholesky, if_true, Matrix.mul_apply, Fin.sum_univ_one, Matrix.conjTranspose_apply, h1]
    rfl

theorem posDef_one (M : Matrix (Fin 1) (Fin 1) ℂ) (x : ℝ) (h : M 0 0 = x) : M.PosDef ↔ 0 < x := by
  have e : M = Matrix.diagonal fun _ => (x : ℂ) := one_ext (by rw [h]; simp)
  rw [e, Matrix.posDef_diagonal_iff]
  simp

theorem frame_wr_one (h : Heap) (A : Ptr) (ld : ℕ) (v : ℂ) : Frame h (wr h A 0 v) A ld 1 1 := by
  intro k a hk
  unfold wr
  by_cases e : k = A.arr
  · subst e
    rw [Function.update_self, Function.update_of_ne]
    exact fun e2 => hk ⟨rfl, 0, one_pos, 0, one_pos, by simpa using e2⟩
  · rw [Function.update_of_ne e]

theorem rd_wr_zero (h : Heap) (A : Ptr) (v : ℂ) : rd (wr h A 0 v) A 0 = v := by
  unfold rd wr
  rw [Function.update_self, Function.update_self]

theorem cmat_one (h : Heap) (A : Ptr) (ld : ℕ) (i j : Fin 1) : cmat h A ld 1 i j = rd h A 0 := by
  rw [Subsingleton.elim i 0, Subsingleton.elim j 0]
  simp [cmat]

theorem lapack1_potrf (A : Ptr) (ld : ℕ) : PotrfOk lapack1 1 A ld := by
  intro _ _ lower h
  rw [posDef_one _ _ (triHerm_one lower h A ld)]
  by_cases hc : 0 < (rd h A 0).re
  · have e : lapack1.potrf lower 1 A ld h = (wr h A 0 ((Real.sqrt (rd h A 0).re : ℝ) : ℂ), 0) := if_pos hc
    rw [e]
    refine ⟨le_rfl, by simpa using hc, fun _ => one_ext ?_, frame_wr_one _ _ _ _⟩
    rw [cholesky_one, triHerm_one, rd_wr_zero, Complex.conj_ofReal, ← Complex.ofReal_mul, Real.mul_self_sqrt hc.le]
  · have e : lapack1.potrf lower 1 A ld h = (h, 1) := if_neg hc
    rw [e]
    exact ⟨by norm_num, by simpa using hc, fun h => absurd h (by norm_num), fun _ _ _ => rfl⟩

theorem lapack1_potri (A : Ptr) (ld : ℕ) : PotriOk lapack1 1 A ld := by
  intro _ _ lower h _
  refine ⟨rfl, fun i j _ => ?_, frame_wr_one _ _ _ _⟩
  rw [cmat_one, Subsingleton.elim i 0, Subsingleton.elim j 0]
  change rd (wr h A 0 _) A 0 = _
  rw [rd_wr_zero, ← cholesky_one lower h A ld, Matrix.inv_def]
  simp [Matrix.adjugate_fin_one]

theorem lapack1_het (A : Ptr) (ld : ℕ) (W : Ptr) (n : ℕ) : HetOk lapack1 1 A ld W n := by
  intro _ _ _ _ _ lower h
  have h1 : (triHerm lower (cmat h A ld 1)).det = ((rd h A 0).re : ℂ) := by
    rw [Matrix.det_fin_one, triHerm_one]
  refine ⟨?_, ?_, fun _ _ _ _ => rfl, fun _ => ⟨rfl, fun i j _ => ?_, fun k a hk _ => frame_wr_one _ _ ld _ k a hk⟩⟩
  · change 0 ≤ (if (rd h A 0).re = 0 then (1 : ℤ) else 0)
    split <;> norm_num
  · change (if (rd h A 0).re = 0 then (1 : ℤ) else 0) = 0 ↔ _
    rw [h1, isUnit_iff_ne_zero]
    simp
  · rw [cmat_one, Subsingleton.elim i 0, Subsingleton.elim j 0]
    change rd (wr h A 0 _) A 0 = _
    rw [rd_wr_zero]
    change (((rd h A 0).re : ℂ))⁻¹ = _
    rw [← triHerm_one lower h A ld, Matrix.inv_def]
    simp [Matrix.adjugate_fin_one]

theorem lapack1_hegv (A : Ptr) (lda : ℕ) (B : Ptr) (ldb : ℕ) (W : Ptr) (n : ℕ) : HegvOk lapack1 1 A lda B ldb W n := by
  intro _ _ _ _ _ _ _ _ _ lower h
  dsimp only
  rw [posDef_one _ _ (triHerm_one lower h B ldb)]
  by_cases hc : 0 < (rd h B 0).re
  · have e : lapack1.hegv lower 1 A lda B ldb W n h = ((wr h A 0 (((Real.sqrt (rd h B 0).re)⁻¹ : ℝ) : ℂ), fun _ => (rd h A 0).re / (rd h B 0).re), 0) := if_pos hc
    rw [e]
    have hs : Real.sqrt (rd h B 0).re * Real.sqrt (rd h B 0).re = (rd h B 0).re := Real.mul_self_sqrt hc.le
    have hs0 : Real.sqrt (rd h B 0).re ≠ 0 := (Real.sqrt_pos.2 hc).ne'
    refine ⟨le_rfl, by simpa using hc, fun _ => ⟨one_ext ?_, one_ext ?_, fun _ _ _ => le_rfl⟩, fun k a hk _ _ => frame_wr_one _ _ lda _ k a hk⟩
    · simp only [Matrix.mul_apply, Fin.sum_univ_one, Matrix.conjTranspose_apply, cmat_one, triHerm_one, rd_wr_zero, Matrix.one_apply_eq]
      change (starRingEnd ℂ) _ * _ * _ = _
      rw [Complex.conj_ofReal]
      norm_cast
      field_simp
      rw [sq, hs]
    · simp only [Matrix.mul_apply, Fin.sum_univ_one, cmat_one, triHerm_one, rd_wr_zero, Matrix.diagonal_apply_eq]
      norm_cast
      field_simp
  · have e : lapack1.hegv lower 1 A lda B ldb W n h = ((h, fun _ => 0), 2) := if_neg hc
    rw [e]
    exact ⟨by norm_num, by simpa using hc, fun h => absurd h (by norm_num), fun _ _ _ _ _ => rfl⟩

theorem lapack1_heev (A : Ptr) (lda : ℕ) (W : Ptr) (n : ℕ) : HeevOk lapack1 1 A lda W n := by
  intro _ _ _ _ _ lower h
  refine ⟨rfl, one_ext ?_, one_ext ?_, fun _ _ _ => le_rfl, fun k a hk _ => frame_wr_one _ _ lda _ k a hk⟩
  · simp only [Matrix.mul_apply, Fin.sum_univ_one, Matrix.conjTranspose_apply, cmat_one, Matrix.one_apply_eq]
    simp [lapack1, rd_wr_zero]
  · simp only [Matrix.mul_apply, Fin.sum_univ_one, cmat_one, triHerm_one, Matrix.diagonal_apply_eq]
    simp [lapack1, rd_wr_zero]

/-- Two one-by-one matrices, `U = (1)` and `B = (4)`. -/
def oneU : SQ := ⟨1, 1, ⟨0, 0⟩⟩
def oneB : SQ := ⟨1, 1, ⟨1, 0⟩⟩
def oneW : SQ := ⟨1, 1, ⟨2, 0⟩⟩
noncomputable def oneHeap : Heap := fun k _ => if k = 1 then 4 else 1

theorem oneU_mat : mat oneHeap oneU.data 1 1 1 = 1 := one_ext rfl
theorem oneB_mat : mat oneHeap oneB.data 1 1 1 0 0 = ((4 : ℝ) : ℂ) := by
  change (if (1 : ℕ) = 1 then (4 : ℂ) else 1) = _
  simp
theorem oneU_herm : (smat oneHeap oneU).IsHermitian := by
  change (mat oneHeap oneU.data 1 1 1).IsHermitian
  rw [oneU_mat]
  exact Matrix.isHermitian_one

/-- The hypotheses of `C116_invert` are met: here the matrix `(1)` with either flag. -/
example (pd : Bool) : ∃ r, sqInvertL lapack1 oneU pd oneW oneHeap = some r ∧ r.1 = true := by
  obtain ⟨r, e, e1, _⟩ := C116_invert lapack1 oneU pd oneW oneHeap one_pos oneU_herm
    (lapack1_potrf _ _) (lapack1_potri _ _) (lapack1_het _ _ _ _) (fun _ => ⟨le_rfl, by decide⟩)
  refine ⟨r, e, e1.2 ?_⟩
  have h1 : (smat oneHeap oneU).PosDef := by
    change (mat oneHeap oneU.data 1 1 1).PosDef
    rw [oneU_mat]
    exact Matrix.PosDef.one
  cases pd
  · simpa using (Matrix.isUnit_iff_isUnit_det _).1 h1.isUnit
  · simpa using h1

theorem one_metric (V M N : Matrix (Fin 1) (Fin 1) ℂ) (d : ℕ → ℝ) (hM : M = 1) (hN : N 0 0 = ((4 : ℝ) : ℂ))
    (e1 : M * V.conjTranspose = N * V.conjTranspose * Matrix.diagonal (fun i : Fin 1 => (d i : ℂ))) (e2 : V * N * V.conjTranspose = 1) :
    M ≠ V.conjTranspose * Matrix.diagonal (fun i : Fin 1 => (d i : ℂ)) * V := by
  subst hM
  intro hc
  have a1 := congrFun (congrFun e1 0) 0
  have a2 := congrFun (congrFun e2 0) 0
  have a3 := congrFun (congrFun hc 0) 0
  have m1 : ∀ M N : Matrix (Fin 1) (Fin 1) ℂ, (M * N) 0 0 = M 0 0 * N 0 0 := fun M N => by simp [Matrix.mul_apply]
  simp only [m1, hN, Matrix.diagonal_apply_eq, Matrix.one_apply_eq] at a1 a2 a3
  generalize V.conjTranspose 0 0 = c at *
  generalize V 0 0 = u at *
  have hc0 : c ≠ 0 := by rintro rfl; simp at a2
  have hl : (1 : ℂ) = 4 * (d ((0 : Fin 1) : ℕ) : ℂ) := by
    refine mul_left_cancel₀ hc0 ?_
    push_cast at a1
    linear_combination a1
  push_cast at a2
  have : (1 : ℂ) = 1 / 16 := by
    calc (1 : ℂ) = c * (d ((0 : Fin 1) : ℕ) : ℂ) * u := a3
      _ = (u * 4 * c) * (4 * (d ((0 : Fin 1) : ℕ) : ℂ)) / 16 := by ring
      _ = 1 / 16 := by rw [a2, ← hl]; norm_num
  norm_num at this

/-- C116: the comment in the source, "`U == adjoint(U') D U'`", is wrong when there is a metric: for `U = (1)` and `B = (4)`, with any LAPACK that keeps its promises,
the right-hand side is `1/16`. -/
theorem C116_documented_refuted (L : Lapack) (hL : ∀ X n, HegvOk L 1 oneU.data 1 oneB.data 1 X n) :
    ∃ r, sqGenEigensolve L oneU (some oneB) oneW ⟨3, 0⟩ oneHeap = some r ∧
      smat oneHeap oneU ≠ (smat r.1 oneU).conjTranspose * Matrix.diagonal (fun i : Fin oneU.p => (r.2 i : ℂ)) * smat r.1 oneU := by
  have hB : (mat oneHeap oneB.data 1 1 1).PosDef := (posDef_one _ 4 oneB_mat).2 (by norm_num)
  obtain ⟨r, e, e1, e2, _⟩ := (C116_gen_eigensolve L oneU oneB oneW ⟨3, 0⟩ oneHeap one_pos rfl hL (by decide) (by decide) (by decide) (by decide) (by decide)
    oneU_herm hB.isHermitian).1 hB
  exact ⟨r, e, one_metric (smat r.1 oneU) _ (mat oneHeap oneB.data 1 1 1) r.2 oneU_mat oneB_mat e1 e2⟩

/-- A LAPACK that keeps its promises for these matrices. -/
example : ∀ X n, HegvOk lapack1 1 oneU.data 1 oneB.data 1 X n := fun X n => lapack1_hegv _ _ _ _ X n
example : ∀ X n, HeevOk lapack1 1 oneU.data 1 X n := fun X n => lapack1_heev _ _ X n

end Mpb.Mat

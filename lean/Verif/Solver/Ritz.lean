import Verif.Mat.Props
import Verif.Mat.Block
import Mathlib.LinearAlgebra.Matrix.PosDef
import Mathlib.Analysis.Complex.Order

/-!
# The final Rayleigh–Ritz step of the eigensolver (C66)

Memory-level model on the heap of `Verif.Mat`.
-/

namespace Mpb.Solver

open Matrix Mat Mat.Spec

open scoped ComplexOrder

/-! ## Model -/

/-- `eigensolver_get_eigenvals_aux`, eigensolver_utils.c:32-46.  `op` is the operator `A` (input, output, scratch matrix). -/
noncomputable def getEigenvalsAux (heev : Ptr → ℕ → Ptr → Heap → Heap × (ℕ → ℝ)) (op : EM → EM → EM → Heap → Option Heap) (Y Work1 Work2 : EM)
    (U Usqrt Uwork : SQ) (h : Heap) : Option (Heap × (ℕ → ℝ)) :=
  (sqSqrt heev Usqrt U Uwork h).bind fun h =>
  (emXeYS Work1 Y Usqrt true h).bind fun h =>
  (op Work1 Work2 Y h).bind fun h =>
  (emXtY U Work1 Work2 Uwork h).bind fun h =>
  let r := sqEigensolve heev U Uwork h
  (emXeYS Y Work1 U true r.1).map fun h => (h, r.2)

/-- `eigensolver_get_eigenvals`, eigensolver_utils.c:48-67; `U`, `Usqrt`, `Uwork` are the matrices it allocates.  The return value of `sqmatrix_invert` is ignored. -/
noncomputable def getEigenvals (heev : Ptr → ℕ → Ptr → Heap → Heap × (ℕ → ℝ)) (lapack : Ptr → ℕ → Heap → Option Heap)
    (op : EM → EM → EM → Heap → Option Heap) (Y Work1 Work2 : EM) (U Usqrt Uwork : SQ) (h : Heap) : Option (Heap × (ℕ → ℝ)) :=
  (emXtX U Y Uwork h).bind fun h => getEigenvalsAux heev op Y Work1 Work2 U Usqrt Uwork (sqInvert lapack U h).2

/-! ## Properties -/

/-- `op X Z scratch` computes `Z = A X` and changes nothing but `Z` and the scratch matrix. -/
def OperatorContract (op : EM → EM → EM → Heap → Option Heap) {n : ℕ} (A : Matrix (Fin n) (Fin n) ℂ) (X Z W : EM) : Prop :=
  ∀ h, ∃ h', op X Z W h = some h' ∧ mat h' Z.data Z.p n Z.p = A * mat h X.data X.p n Z.p ∧
    (∀ k a, k ≠ Z.data.arr → k ≠ W.data.arr → h' k a = h k a)

/-- The matrices used by the final step are different arrays of the right sizes. -/
structure RitzSetup (Y Work1 Work2 : EM) (U Usqrt Uwork : SQ) : Prop where
  p0 : Y.p ≠ 0
  n1 : Work1.n = Y.n
  n2 : Work2.n = Y.n
  p1 : Work1.p = Y.p
  p2 : Work2.p = Y.p
  u1 : U.p = Y.p
  u2 : Usqrt.p = Y.p
  u3 : Uwork.p = Y.p
  a1 : Y.p ≤ U.allocP
  a3 : Y.p ≤ Uwork.allocP
  dist : [Y.data.arr, Work1.data.arr, Work2.data.arr, U.data.arr, Usqrt.data.arr, Uwork.data.arr].Nodup

theorem heev_pos {heev : Ptr → ℕ → Ptr → Heap → Heap × (ℕ → ℝ)} {U W : SQ} {h : Heap} (hH : HeevContract heev U.data U.p W.data h)
    (hU : (smat h U).PosDef) : ∀ i < U.p, 0 < (sqEigensolve heev U W h).2 i := by
  intro i hi
  obtain ⟨s1, s2, s3, -, -⟩ := C22_eigensolve heev U W h hH hU.isHermitian
  generalize sqEigensolve heev U W h = r at *
  have hinj : Function.Injective ((smat r.1 U)ᴴ).mulVec := by
    intro u v huv
    have := congrArg (fun w => smat r.1 U *ᵥ w) huv
    simpa [mulVec_mulVec, s2] using this
  have hp := hU.conjTranspose_mul_mul_same hinj
  rw [conjTranspose_conjTranspose, s1] at hp
  have e : smat r.1 U * ((smat r.1 U)ᴴ * diagonal (fun i : Fin U.p => (r.2 i : ℂ)) * smat r.1 U) * (smat r.1 U)ᴴ = diagonal (fun i : Fin U.p => (r.2 i : ℂ)) := by
    calc _ = (smat r.1 U * (smat r.1 U)ᴴ) * diagonal (fun i : Fin U.p => (r.2 i : ℂ)) * (smat r.1 U * (smat r.1 U)ᴴ) := by simp only [Matrix.mul_assoc]
      _ = _ := by rw [s2, Matrix.one_mul, Matrix.mul_one]
  rw [e] at hp
  have := hp.diag_pos (i := ⟨i, hi⟩)
  rw [diagonal_apply_eq] at this
  exact_mod_cast this

theorem getEigenvalsAux_spec {heev : Ptr → ℕ → Ptr → Heap → Heap × (ℕ → ℝ)} {op : EM → EM → EM → Heap → Option Heap} {Y Work1 Work2 : EM} {U Usqrt Uwork : SQ}
    (hs : RitzSetup Y Work1 Work2 U Usqrt Uwork) (hH : ∀ h, HeevContract heev U.data U.p Uwork.data h) {A B : Matrix (Fin Y.n) (Fin Y.n) ℂ} (hA : A.IsHermitian)
    (hop : OperatorContract op A Work1 Work2 Y) (h : Heap) (hU : mat h U.data Y.p Y.p Y.p = ((emat h Y)ᴴ * B * emat h Y)⁻¹)
    (hpd : ((emat h Y)ᴴ * B * emat h Y).PosDef) :
    ∃ h' vals, getEigenvalsAux heev op Y Work1 Work2 U Usqrt Uwork h = some (h', vals) ∧
      (emat h' Y)ᴴ * B * emat h' Y = 1 ∧ (emat h' Y)ᴴ * A * emat h' Y = diagonal (fun i : Fin Y.p => (vals i : ℂ)) ∧
      (∀ i j : Fin Y.p, i ≤ j → vals i ≤ vals j) ∧
      ∃ M : Matrix (Fin Y.p) (Fin Y.p) ℂ, IsUnit M ∧ emat h' Y = emat h Y * M := by
  obtain ⟨p0, n1, n2, p1, p2, u1, u2, u3, a1, a3, dist⟩ := hs
  simp only [List.nodup_cons, List.mem_cons, List.not_mem_nil, or_false, not_or, List.nodup_nil, and_true, not_false_iff] at dist
  obtain ⟨⟨dY1, dY2, dYU, dYS, dYW⟩, ⟨d12, d1U, d1S, d1W⟩, ⟨d2U, d2S, d2W⟩, ⟨dUS, dUW⟩, dSW⟩ := dist
  have hA' : Aᴴ = A := hA
  obtain ⟨N, p, ap, Yd⟩ := Y
  obtain ⟨n1', p1', ap1, W1d⟩ := Work1
  obtain ⟨n2', p2', ap2, W2d⟩ := Work2
  obtain ⟨pu, apu, Ud⟩ := U
  obtain ⟨ps, aps, Sd⟩ := Usqrt
  obtain ⟨pw, apw, Wd⟩ := Uwork
  simp only at *
  subst n1 n2 p1 p2 u1 u2 u3
  rename' n2' => N
  unfold getEigenvalsAux
  have hUpd : (smat h ⟨pw, apu, Ud⟩).PosDef := by
    show (mat h Ud pw pw pw).PosDef
    rw [hU]
    exact hpd.inv
  obtain ⟨h1, e1, r1, r2, r3⟩ := C22_sqrt heev ⟨pw, aps, Sd⟩ ⟨pw, apu, Ud⟩ ⟨pw, apw, Wd⟩ h (hH h) hUpd.isHermitian rfl rfl dUS (Ne.symm dSW) dUW
    (heev_pos (hH h) hUpd)
  rw [e1, Option.bind_some]
  -- Work1 = Y sqrt(U)
  obtain ⟨h2, e2, m2, f2⟩ := C64_XeYS ⟨N, pw, ap1, W1d⟩ ⟨N, pw, ap, Yd⟩ ⟨pw, aps, Sd⟩ true h1 rfl rfl rfl p0 dY1 (Ne.symm d1S)
  rw [e2, Option.bind_some]
  -- Work2 = A Work1
  obtain ⟨h3, e3, m3, f3⟩ := hop h2
  rw [e3, Option.bind_some]
  -- U = Work1ᴴ Work2
  obtain ⟨h4, e4, m4, f4⟩ := C64_XtY ⟨pw, apu, Ud⟩ ⟨N, pw, ap1, W1d⟩ ⟨N, pw, ap2, W2d⟩ ⟨pw, apw, Wd⟩ h3 rfl rfl rfl a3 a1 d1W d2W (Ne.symm dUW)
  rw [e4, Option.bind_some]
  simp only [emat] at *
  have y1 : mat h1 Yd pw N pw = mat h Yd pw N pw := by
    ext i j
    exact r3 _ _ dYU dYW (fun hb => dYS hb.1)
  have hS : (mat h1 Sd pw pw pw)ᴴ = mat h1 Sd pw pw pw := r2
  rw [y1] at m2
  simp only [if_true, hS] at m2
  set S := mat h1 Sd pw pw pw with hSdef
  set Y0 := mat h Yd pw N pw with hY0
  have w3 : mat h3 W1d pw N pw = Y0 * S := by
    rw [← m2]
    ext i j
    exact f3 _ _ d12 (Ne.symm dY1)
  have w4 : mat h4 W1d pw N pw = Y0 * S := by
    rw [← w3]
    ext i j
    exact f4 _ _ d1W (fun hb => d1U hb.1)
  rw [w3, m3, m2] at m4
  have hherm : (smat h4 ⟨pw, apu, Ud⟩).IsHermitian := by
    show (mat h4 Ud pw pw pw)ᴴ = mat h4 Ud pw pw pw
    rw [m4]
    simp only [conjTranspose_mul, conjTranspose_conjTranspose, hA', Matrix.mul_assoc]
  obtain ⟨g1, g2, g3, g4, g5⟩ := C22_eigensolve heev ⟨pw, apu, Ud⟩ ⟨pw, apw, Wd⟩ h4 (hH h4) hherm
  set r := sqEigensolve heev ⟨pw, apu, Ud⟩ ⟨pw, apw, Wd⟩ h4 with hr
  -- Y = Work1 Uᴴ
  obtain ⟨h5, e5, m5, f5⟩ := C64_XeYS ⟨N, pw, ap, Yd⟩ ⟨N, pw, ap1, W1d⟩ ⟨pw, apu, Ud⟩ true r.1 rfl rfl rfl p0 (Ne.symm dY1) (Ne.symm dYU)
  have w5 : mat r.1 W1d pw N pw = Y0 * S := by
    rw [← w4]
    ext i j
    exact g5 _ _ (fun hb => d1U hb.1) d1W
  simp only [emat, w5, if_true] at m5
  refine ⟨h5, r.2, by simp only [e5, Option.map_some], ?_, ?_, g4, S * (mat r.1 Ud pw pw pw)ᴴ, ?_, ?_⟩
  all_goals simp only [smat] at *
  all_goals set V := mat r.1 Ud pw pw pw with hV
  all_goals have hunit : IsUnit (Y0ᴴ * B * Y0) := hpd.isUnit
  all_goals have hdet := (isUnit_iff_isUnit_det _).1 hunit
  all_goals have hUU : S * S = (Y0ᴴ * B * Y0)⁻¹ := by rw [← hU]; exact r1
  · -- Yᴴ B Y = 1
    have hSS : S * (Y0ᴴ * B * Y0) * S = 1 := by
      have h1 : S * (S * (Y0ᴴ * B * Y0)) = 1 := by rw [← Matrix.mul_assoc, hUU, nonsing_inv_mul _ hdet]
      have h2 : S * (Y0ᴴ * B * Y0) * S = 1 := mul_eq_one_comm.1 h1
      exact h2
    rw [m5]
    calc (Y0 * S * Vᴴ)ᴴ * B * (Y0 * S * Vᴴ) = V * (S * (Y0ᴴ * B * Y0) * S) * Vᴴ := by
          simp only [conjTranspose_mul, conjTranspose_conjTranspose, hS, Matrix.mul_assoc]
      _ = 1 := by rw [hSS, Matrix.mul_one, g2]
  · rw [m5]
    calc (Y0 * S * Vᴴ)ᴴ * A * (Y0 * S * Vᴴ) = V * ((Y0 * S)ᴴ * (A * (Y0 * S))) * Vᴴ := by
          simp only [conjTranspose_mul, conjTranspose_conjTranspose, hS, Matrix.mul_assoc]
      _ = (V * Vᴴ) * diagonal (fun i : Fin pw => (r.2 i : ℂ)) * (V * Vᴴ) := by
          rw [← m4, g1]
          simp only [Matrix.mul_assoc]
      _ = _ := by rw [g2, Matrix.one_mul, Matrix.mul_one]
  · have hSu : IsUnit S := by
      refine isUnit_of_mul_isUnit_left (y := S) ?_
      rw [hUU]
      exact (isUnit_nonsing_inv_iff).2 hunit
    have hVu : IsUnit Vᴴ := IsUnit.of_mul_eq_one _ g3
    exact hSu.mul hVu
  · rw [m5, Matrix.mul_assoc]

/-- C66: the final step of the eigensolver, given the inverse overlap matrix of the block in `U`: the returned vectors are orthonormal in the inner product of `B`, the operator
is diagonal in them with the returned eigenvalues on the diagonal, the eigenvalues are ascending, and the vectors span the same space as the block before the step. -/
theorem C66_ritz {heev : Ptr → ℕ → Ptr → Heap → Heap × (ℕ → ℝ)} {op : EM → EM → EM → Heap → Option Heap} {Y Work1 Work2 : EM} {U Usqrt Uwork : SQ}
    (hs : RitzSetup Y Work1 Work2 U Usqrt Uwork) (hH : ∀ h, HeevContract heev U.data U.p Uwork.data h) {A B : Matrix (Fin Y.n) (Fin Y.n) ℂ} (hA : A.IsHermitian)
    (hB : B.PosDef) (hop : OperatorContract op A Work1 Work2 Y) (h : Heap) (hU : mat h U.data Y.p Y.p Y.p = ((emat h Y)ᴴ * B * emat h Y)⁻¹)
    (hY : Function.Injective (emat h Y).mulVec) :
    ∃ h' vals, getEigenvalsAux heev op Y Work1 Work2 U Usqrt Uwork h = some (h', vals) ∧
      (emat h' Y)ᴴ * B * emat h' Y = 1 ∧ (emat h' Y)ᴴ * A * emat h' Y = diagonal (fun i : Fin Y.p => (vals i : ℂ)) ∧
      (∀ i j : Fin Y.p, i ≤ j → vals i ≤ vals j) ∧
      LinearMap.range (emat h' Y).mulVecLin = LinearMap.range (emat h Y).mulVecLin := by
  obtain ⟨h', vals, e, k1, k2, k3, M, hM, k4⟩ := getEigenvalsAux_spec hs hH hA hop h hU (hB.conjTranspose_mul_mul_same hY)
  refine ⟨h', vals, e, k1, k2, k3, ?_⟩
  rw [k4, mulVecLin_mul]
  refine LinearMap.range_comp_of_range_eq_top _ ?_
  rw [LinearMap.range_eq_top]
  intro v
  refine ⟨M⁻¹ *ᵥ v, ?_⟩
  rw [mulVecLin_apply, mulVec_mulVec, mul_nonsing_inv _ ((isUnit_iff_isUnit_det _).1 hM), one_mulVec]

/-- C66: an eigenvector found exactly is returned with its eigenvalue: when the space spanned by the block is invariant under the eigenproblem (`A Y = B Y K` for some `K`),
the returned vectors solve `A y = λ B y`. -/
theorem C66_exact {heev : Ptr → ℕ → Ptr → Heap → Heap × (ℕ → ℝ)} {op : EM → EM → EM → Heap → Option Heap} {Y Work1 Work2 : EM} {U Usqrt Uwork : SQ}
    (hs : RitzSetup Y Work1 Work2 U Usqrt Uwork) (hH : ∀ h, HeevContract heev U.data U.p Uwork.data h) {A B : Matrix (Fin Y.n) (Fin Y.n) ℂ} (hA : A.IsHermitian)
    (hB : B.PosDef) (hop : OperatorContract op A Work1 Work2 Y) (h : Heap) (hU : mat h U.data Y.p Y.p Y.p = ((emat h Y)ᴴ * B * emat h Y)⁻¹)
    (hY : Function.Injective (emat h Y).mulVec) (K : Matrix (Fin Y.p) (Fin Y.p) ℂ) (hK : A * emat h Y = B * emat h Y * K) :
    ∃ h' vals, getEigenvalsAux heev op Y Work1 Work2 U Usqrt Uwork h = some (h', vals) ∧
      A * emat h' Y = B * emat h' Y * diagonal (fun i : Fin Y.p => (vals i : ℂ)) := by
  obtain ⟨h', vals, e, k1, k2, k3, M, hM, k4⟩ := getEigenvalsAux_spec hs hH hA hop h hU (hB.conjTranspose_mul_mul_same hY)
  refine ⟨h', vals, e, ?_⟩
  have hdet := (isUnit_iff_isUnit_det _).1 hM
  have h1 : A * emat h' Y = B * emat h' Y * (M⁻¹ * (K * M)) := by
    rw [k4, ← Matrix.mul_assoc A, hK]
    have : M * (M⁻¹ * (K * M)) = K * M := by rw [← Matrix.mul_assoc, mul_nonsing_inv _ hdet, Matrix.one_mul]
    simp only [Matrix.mul_assoc, this]
  have h2 : M⁻¹ * (K * M) = diagonal (fun i : Fin Y.p => (vals i : ℂ)) := by
    rw [← k2, Matrix.mul_assoc (emat h' Y)ᴴ A, h1, ← Matrix.mul_assoc (emat h' Y)ᴴ, ← Matrix.mul_assoc (emat h' Y)ᴴ, k1, Matrix.one_mul]
  rw [h1, h2]

/-- C66: the diagonalisation used for a target frequency (`eigensolver_get_eigenvals`): the same, starting from any block with independent columns. -/
theorem C66_get_eigenvals {heev : Ptr → ℕ → Ptr → Heap → Heap × (ℕ → ℝ)} {lapack : Ptr → ℕ → Heap → Option Heap} {op : EM → EM → EM → Heap → Option Heap}
    {Y Work1 Work2 : EM} {U Usqrt Uwork : SQ}
    (hs : RitzSetup Y Work1 Work2 U Usqrt Uwork) (hH : ∀ h, HeevContract heev U.data U.p Uwork.data h) (hL : ∀ h, InvContract lapack U.data U.p h)
    (hLs : ∀ h, (smat h U).PosDef → (lapack U.data U.p h).isSome) {A : Matrix (Fin Y.n) (Fin Y.n) ℂ} (hA : A.IsHermitian)
    (hop : OperatorContract op A Work1 Work2 Y) (h : Heap) (hY : Function.Injective (emat h Y).mulVec) :
    ∃ h' vals, getEigenvals heev lapack op Y Work1 Work2 U Usqrt Uwork h = some (h', vals) ∧
      (emat h' Y)ᴴ * emat h' Y = 1 ∧ (emat h' Y)ᴴ * A * emat h' Y = diagonal (fun i : Fin Y.p => (vals i : ℂ)) ∧
      (∀ i j : Fin Y.p, i ≤ j → vals i ≤ vals j) ∧
      LinearMap.range (emat h' Y).mulVecLin = LinearMap.range (emat h Y).mulVecLin := by
  unfold getEigenvals
  have hd := hs.dist
  simp only [List.nodup_cons, List.mem_cons, List.not_mem_nil, or_false, not_or, List.nodup_nil, and_true, not_false_iff] at hd
  obtain ⟨h1, e1, m1, f1⟩ := C64_XtX U Y Uwork h hs.u1.symm (by rw [hs.u1]; exact hs.a3) hd.1.2.2.2.2 (Ne.symm hd.2.2.2.1.2)
  rw [e1, Option.bind_some]
  have hYp : (emat h Y)ᴴ * (1 : Matrix (Fin Y.n) (Fin Y.n) ℂ) * emat h Y = (emat h Y)ᴴ * emat h Y := by rw [Matrix.mul_one]
  have hu1 := hs.u1
  have hpd : ((emat h Y)ᴴ * emat h Y).PosDef := by
    rw [← hYp]
    exact PosDef.one.conjTranspose_mul_mul_same hY
  have m1' : mat h1 U.data Y.p Y.p Y.p = (emat h Y)ᴴ * emat h Y := by
    unfold smat at m1
    rw [hu1] at m1
    exact m1
  have hUpd : (smat h1 U).PosDef := by
    unfold smat
    rw [hu1, m1']
    exact hpd
  have hinv : (sqInvert lapack U h1).1 = true := by
    have := hLs h1 hUpd
    unfold sqInvert
    cases hl : lapack U.data U.p h1 with
    | none => rw [hl] at this; simp at this
    | some h' => rfl
  obtain ⟨i1, -, i3⟩ := C22_invert lapack U h1 (hL h1) hUpd.isHermitian hinv
  set h2 := (sqInvert lapack U h1).2 with hh2
  have hYe : emat h2 Y = emat h Y := by
    ext i j
    show h2 _ _ = h _ _
    rw [i3.arr hd.1.2.2.1, f1 _ _ hd.1.2.2.2.2 (fun hb => hd.1.2.2.1 hb.1)]
  have hU2 : mat h2 U.data Y.p Y.p Y.p = ((emat h2 Y)ᴴ * (1 : Matrix (Fin Y.n) (Fin Y.n) ℂ) * emat h2 Y)⁻¹ := by
    rw [hYe, hYp, ← m1']
    unfold smat at i1
    rw [hu1] at i1
    exact i1
  obtain ⟨h', vals, k0, k1, k2, k3, k4⟩ := C66_ritz hs hH hA (PosDef.one) hop h2 hU2 (by rw [hYe]; exact hY)
  exact ⟨h', vals, k0, by rw [← k1, Matrix.mul_one], k2, k3, by rw [k4, hYe]⟩

/-! ## Non-vacuity: a 1×1 problem -/

/-- LAPACK's eigensolver for 1×1 matrices. -/
def heev1 (P : Ptr) (_ : ℕ) (_ : Ptr) (h : Heap) : Heap × (ℕ → ℝ) := (wr h P 0 1, fun _ => (rd h P 0).re)

/-- Multiplication by 3. -/
noncomputable def op3 (X Z _W : EM) (h : Heap) : Option Heap := some (wr h Z.data 0 (3 * rd h X.data 0))

/-- The block `Y = (2)` in array 0 and `U = (1/4)` in array 3. -/
noncomputable def exRitz : Heap := fun k _ => if k = 0 then 2 else if k = 3 then 1 / 4 else 0

example : ∃ h' vals, getEigenvalsAux heev1 op3 ⟨1, 1, 1, ⟨0, 0⟩⟩ ⟨1, 1, 1, ⟨1, 0⟩⟩ ⟨1, 1, 1, ⟨2, 0⟩⟩ ⟨1, 1, ⟨3, 0⟩⟩ ⟨1, 1, ⟨4, 0⟩⟩ ⟨1, 1, ⟨5, 0⟩⟩ exRitz =
    some (h', vals) ∧ vals 0 = 3 := by
  have hA : (Matrix.of fun _ _ => (3 : ℂ) : Matrix (Fin 1) (Fin 1) ℂ).IsHermitian := by
    ext i j
    simp
  obtain ⟨h', vals, e, k1, k2, -, -⟩ := C66_ritz (heev := heev1) (op := op3) (Y := ⟨1, 1, 1, ⟨0, 0⟩⟩) (Work1 := ⟨1, 1, 1, ⟨1, 0⟩⟩)
    (Work2 := ⟨1, 1, 1, ⟨2, 0⟩⟩) (U := ⟨1, 1, ⟨3, 0⟩⟩) (Usqrt := ⟨1, 1, ⟨4, 0⟩⟩) (Uwork := ⟨1, 1, ⟨5, 0⟩⟩)
    ⟨by decide, rfl, rfl, rfl, rfl, rfl, rfl, rfl, by decide, by decide, by decide⟩ (by
      intro h hh
      have h0 := congrFun (congrFun hh 0) 0
      simp [mat] at h0
      refine ⟨?_, ?_, fun i j _ => le_rfl, ?_⟩
      · ext i j
        fin_cases i; fin_cases j
        simp [heev1, mat, wr, Matrix.mul_apply]
      · ext i j
        fin_cases i; fin_cases j
        simp [heev1, mat, wr, rd, Matrix.mul_apply]
        exact ((Complex.conj_eq_iff_re.1 h0)).symm
      · intro k a hb _
        refine wr_other ?_
        rintro ⟨rfl, rfl⟩
        exact hb ⟨rfl, 0, by decide, 0, by decide, by simp⟩) (A := Matrix.of fun _ _ => 3) (B := 1) hA PosDef.one (by
      intro h
      refine ⟨_, rfl, ?_, ?_⟩
      · ext i j
        fin_cases i; fin_cases j
        simp [mat, wr, rd, Matrix.mul_apply]
      · intro k a k1 _
        exact wr_other (fun e => k1 e.1)) exRitz (by
      symm
      refine Matrix.inv_eq_right_inv ?_
      ext i j
      fin_cases i; fin_cases j
      simp [mat, emat, exRitz, Matrix.mul_apply]
      norm_num) (by
      intro u v huv
      have := congrFun huv 0
      simp [mulVec, dotProduct, emat, mat, exRitz] at this
      funext i
      fin_cases i
      exact this)
  refine ⟨h', vals, e, ?_⟩
  have e1 := congrFun (congrFun k1 0) 0
  have e2 := congrFun (congrFun k2 0) 0
  simp [Matrix.mul_apply] at e1 e2
  have : (vals 0 : ℂ) = 3 := by
    rw [← e2]
    linear_combination 3 * e1
  exact_mod_cast this

end Mpb.Solver

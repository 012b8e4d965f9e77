import Verif.Target.Spec
import Verif.Target.Lemmas
import Verif.Eig.Props
import Mathlib.Data.Fin.Tuple.Sort

/-! # Property C77: the operator of the targeted solver -/

namespace Mpb.Target

open Mpb.Maxwell Mpb.Mat Mpb.Maxwell.Spec Mpb.Target.Spec

theorem bandMaxwell_congr (d : OpData) {x y : ℕ → ℂ × ℂ} (h : ∀ G < d.N, x G = y G) (G : ℕ) : bandMaxwell d x G = bandMaxwell d y G := by
  unfold bandMaxwell
  cases d.muInv with
  | none => exact colOp_congr _ _ _ _ _ h G
  | some mu =>
    dsimp only
    exact colOp_congr _ _ _ _ _ (fun G' _ => colOp_congr _ _ _ _ _ (fun G'' _ => colOp_congr _ _ _ _ _ h G'') G') G

/-- One step: `Xout = (M - w²) Xin` for distinct arrays, nothing else written. -/
theorem targetOperator1_apply (d : OpData) (w : ℝ) (p : ℕ) (hn : 0 < d.nfb) (bufs : ℕ → ℕ → ℂ) {xin xout : ℕ} (hne : xin ≠ xout) (h : Heap) :
    ∃ h', targetOperator1 d w p bufs xin xout h = some h' ∧
      (∀ b < p, ∀ G < d.N, band p (h' xout) b G = shift (bandMaxwell d) w (band p (h xin) b) G) ∧
      (∀ a, d.N * 2 * p ≤ a → h' xout a = h xout a) ∧ (∀ k, k ≠ xout → h' k = h k) := by
  obtain ⟨R, hR, hA, hrest⟩ := C04_bands d p hn bufs (h xin) (h xout)
  unfold targetOperator1
  rw [hR]
  unfold emaXpbY
  dsimp only
  rw [if_pos ⟨rfl, rfl⟩, if_neg (by simp)]
  obtain ⟨s1, s2⟩ := axpy_spec ((bundle d p xout).n * (bundle d p xout).p) ((-(w * w) : ℝ) : ℂ) (bundle d p xin).data (bundle d p xout).data
    (Function.update h xout R) (Or.inl hne)
  refine ⟨_, rfl, fun b hb G hG => ?_, fun a ha => ?_, fun k hk => ?_⟩
  · have e : ∀ c < 2, axpy ((bundle d p xout).n * (bundle d p xout).p) ((-(w * w) : ℝ) : ℂ) (bundle d p xin).data 1 (bundle d p xout).data 1
        (Function.update h xout R) xout ((G * 2 + c) * p + b) = R ((G * 2 + c) * p + b) - (w : ℂ) ^ 2 * h xin ((G * 2 + c) * p + b) := by
      intro c hc
      have := s1 ((G * 2 + c) * p + b) (rowMajor_lt (rowMajor_lt hG hc) hb)
      simp only [rd, bundle, Nat.zero_add, Function.update_self, Function.update_of_ne hne] at this
      simp only [bundle]
      rw [this]
      push_cast
      ring
    have hAb := hA b hb G hG
    unfold shift
    rw [← hAb]
    exact Prod.ext (e 0 (by omega)) (e 1 (by omega))
  · rw [s2 xout a (fun i hi hh => by simp only [bundle] at hi hh; omega), Function.update_self, hrest a ha]
  · funext a
    rw [s2 k a (fun i hi hh => hk hh.1), Function.update_of_ne hk]

theorem shift_congr (d : OpData) (w : ℝ) {x y : ℕ → ℂ × ℂ} (h : ∀ G < d.N, x G = y G) {G : ℕ} (hG : G < d.N) :
    shift (bandMaxwell d) w x G = shift (bandMaxwell d) w y G := by
  unfold shift
  rw [bandMaxwell_congr d h, h G hG]

/-- C77 (what it computes).  Given a work array distinct from the input and the output, the targeted operator returns, and every band of
its output is `(M - w²)² x` for that input band, `M` the operator of C04.  Input and output may be the same array.  Besides the bands of
the output only the work array is changed. -/
theorem C77_operator (d : OpData) (w : ℝ) (p : ℕ) (hn : 0 < d.nfb) (bufs bufs' : ℕ → ℕ → ℂ) {xin xout work : ℕ} (h1 : work ≠ xin)
    (h2 : work ≠ xout) (h : Heap) :
    ∃ h', targetOperator d w p bufs bufs' xin xout work h = some h' ∧
      (∀ b < p, ∀ G < d.N, band p (h' xout) b G = shift (bandMaxwell d) w (shift (bandMaxwell d) w (band p (h xin) b)) G) ∧
      (∀ a, d.N * 2 * p ≤ a → h' xout a = h xout a) ∧ (∀ k, k ≠ xout → k ≠ work → h' k = h k) := by
  unfold targetOperator
  rw [if_neg (by rintro ⟨-, h | h⟩ <;> contradiction)]
  obtain ⟨ha, e1, a1, a2, a3⟩ := targetOperator1_apply d w p hn bufs (Ne.symm h1) h
  obtain ⟨hb, e2, b1, b2, b3⟩ := targetOperator1_apply d w p hn bufs' h2 ha
  rw [e1]
  refine ⟨hb, e2, fun b hbp G hG => ?_, fun a ha' => ?_, fun k hk hk' => ?_⟩
  · rw [b1 b hbp G hG]
    exact shift_congr d w (fun G' hG' => a1 b hbp G' hG') hG
  · rw [b2 a ha', a3 xout (Ne.symm h2)]
  · rw [b3 k hk, a3 k hk']

/-- C77 (eigenvectors).  An eigenvector of `M` with eigenvalue `λ` becomes `(λ - w²)²` times itself. -/
theorem C77_eigenvalue (d : OpData) (w : ℝ) (p : ℕ) (hn : 0 < d.nfb) (bufs bufs' : ℕ → ℕ → ℂ) {xin xout work : ℕ} (h1 : work ≠ xin)
    (h2 : work ≠ xout) (h : Heap) (b : ℕ) (hb : b < p) (lam : ℝ)
    (heig : ∀ G < d.N, bandMaxwell d (band p (h xin) b) G = times lam (band p (h xin) b) G) :
    ∃ h', targetOperator d w p bufs bufs' xin xout work h = some h' ∧
      ∀ G < d.N, band p (h' xout) b G = times ((((lam - w ^ 2) ^ 2 : ℝ)) : ℂ) (band p (h xin) b) G := by
  obtain ⟨h', e, a1, -, -⟩ := C77_operator d w p hn bufs bufs' h1 h2 h
  refine ⟨h', e, fun G hG => ?_⟩
  set x := band p (h xin) b with hx
  have s1 : ∀ G < d.N, shift (bandMaxwell d) w x G = times ((lam - w ^ 2 : ℝ) : ℂ) x G := by
    intro G hG
    unfold shift
    rw [heig G hG]
    unfold times
    refine Prod.ext ?_ ?_ <;> push_cast <;> ring
  rw [a1 b hb G hG, ← hx, shift_congr d w s1 hG]
  have lin : ∀ z : ℂ, bandMaxwell d (times z x) G = times z (bandMaxwell d x) G := by
    intro z
    have := C04_linear d x (fun _ => (0, 0)) z 0 G
    simp only [mul_zero, add_zero, zero_mul] at this
    exact this
  unfold shift
  rw [lin]
  unfold times
  rw [heig G hG]
  unfold times
  refine Prod.ext ?_ ?_ <;> push_cast <;> ring

theorem inner_congr_right {N : ℕ} {x y y' : ℕ → ℂ × ℂ} (h : ∀ G < N, y G = y' G) : inner N x y = inner N x y' := by
  unfold Maxwell.Spec.inner
  exact Finset.sum_congr rfl (fun G hG => by rw [h G (Finset.mem_range.1 hG)])

theorem inner_self_re (N : ℕ) (x : ℕ → ℂ × ℂ) :
    (inner N x x).re = ∑ G ∈ Finset.range N, (Complex.normSq (x G).1 + Complex.normSq (x G).2) ∧ (inner N x x).im = 0 := by
  have : inner N x x = ((∑ G ∈ Finset.range N, (Complex.normSq (x G).1 + Complex.normSq (x G).2) : ℝ) : ℂ) := by
    unfold Maxwell.Spec.inner hermT
    push_cast
    refine Finset.sum_congr rfl (fun G _ => ?_)
    simp only [← Complex.mul_conj]
    ring
  rw [this]
  simp

theorem maxwell_hermitian {d : OpData} (hW : AdjointTransforms d) {K : ℕ → V3 ℝ} (hK : ∀ G < d.N, IsBasis (K G) (d.kpg G)) :
    Hermitian d.N (bandMaxwell d) := by
  intro x y
  rw [inner_bandMaxwell hW hK, inner_bandMaxwell hW hK, ← gridForm_symm]

theorem inner_shift {N : ℕ} {M : (ℕ → ℂ × ℂ) → ℕ → ℂ × ℂ} (hM : Hermitian N M) (w : ℝ) (x y : ℕ → ℂ × ℂ) :
    inner N x (shift M w y) = inner N (shift M w x) y := by
  have e1 : inner N x (shift M w y) = inner N x (M y) - (w : ℂ) ^ 2 * inner N x y := by
    unfold Maxwell.Spec.inner shift hermT
    rw [Finset.mul_sum, ← Finset.sum_sub_distrib]
    exact Finset.sum_congr rfl (fun G _ => by ring)
  have e2 : inner N (shift M w x) y = inner N (M x) y - (w : ℂ) ^ 2 * inner N x y := by
    unfold Maxwell.Spec.inner shift hermT
    rw [Finset.mul_sum, ← Finset.sum_sub_distrib]
    refine Finset.sum_congr rfl (fun G _ => ?_)
    simp only [map_sub, map_mul, map_pow, Complex.conj_ofReal]
    ring
  rw [e1, e2, hM x y, ← inner_symm]

/-- C77 (Hermitian, positive).  For any two bands `a`, `b` of the input the output bands give the matrix element
`⟨(M - w²) x_a | (M - w²) x_b⟩`; it is Hermitian and its diagonal is real and non-negative, whatever the tensors and whatever `w`. -/
theorem C77_hermitian_psd (d : OpData) (w : ℝ) (p : ℕ) (hn : 0 < d.nfb) (hW : AdjointTransforms d) (K : ℕ → V3 ℝ)
    (hK : ∀ G < d.N, IsBasis (K G) (d.kpg G)) (bufs bufs' : ℕ → ℕ → ℂ) {xin xout work : ℕ} (h1 : work ≠ xin)
    (h2 : work ≠ xout) (h : Heap) (a b : ℕ) (ha : a < p) (hb : b < p) :
    ∃ h', targetOperator d w p bufs bufs' xin xout work h = some h' ∧
      inner d.N (band p (h xin) a) (band p (h' xout) b) =
        inner d.N (shift (bandMaxwell d) w (band p (h xin) a)) (shift (bandMaxwell d) w (band p (h xin) b)) ∧
      inner d.N (band p (h xin) a) (band p (h' xout) b) = (starRingEnd ℂ) (inner d.N (band p (h xin) b) (band p (h' xout) a)) ∧
      (inner d.N (band p (h xin) a) (band p (h' xout) a)).im = 0 ∧ 0 ≤ (inner d.N (band p (h xin) a) (band p (h' xout) a)).re := by
  obtain ⟨h', e, a1, -, -⟩ := C77_operator d w p hn bufs bufs' h1 h2 h
  have hM := maxwell_hermitian hW hK
  have key : ∀ a b, b < p → inner d.N (band p (h xin) a) (band p (h' xout) b) =
      inner d.N (shift (bandMaxwell d) w (band p (h xin) a)) (shift (bandMaxwell d) w (band p (h xin) b)) := by
    intro a b hb
    rw [inner_congr_right (a1 b hb), inner_shift hM]
  refine ⟨h', e, key a b hb, ?_, ?_, ?_⟩
  · rw [key a b hb, key b a ha, ← inner_symm]
  · rw [key a a ha]; exact (inner_self_re _ _).2
  · rw [key a a ha, (inner_self_re _ _).1]
    exact Finset.sum_nonneg (fun G _ => add_nonneg (Complex.normSq_nonneg _) (Complex.normSq_nonneg _))

/-- C77, the full claim on work space is false: with two work arrays the eigensolver's search direction `D` is the array `X` (slot 2), and
its call `A(D, G, Adata, 0, X)` (eigensolver.c:656) always fails the `CHECK` of the targeted operator, on every non-empty grid. -/
theorem C77_two_work_arrays_refuted {N p : ℕ} (a : Eig.Args N p) (hB : a.B = none) (hw : a.nWork = 2) (d : OpData) (hN : 0 < d.N) (w : ℝ)
    (q : ℕ) (bufs bufs' : ℕ → ℕ → ℂ) (h : Heap) : targetOperator d w q bufs bufs' (Eig.sD a) 1 2 h = none := by
  have : Eig.sD a = 2 := by simp [Eig.sD, Eig.cg, Eig.nB, hB, hw]
  unfold targetOperator
  rw [this, if_pos ⟨by omega, Or.inl rfl⟩]

/-- With three or more work arrays the same call satisfies the condition on the work space. -/
theorem C77_three_work_arrays {N p : ℕ} (a : Eig.Args N p) (hw : 3 + Eig.nB a ≤ a.nWork) : 2 ≠ Eig.sD a ∧ (2 : ℕ) ≠ 1 := by
  refine ⟨?_, by decide⟩
  unfold Eig.sD
  rw [if_pos (by simp [Eig.cg, hw])]
  omega

/-! ### Which bands it selects -/

section select

open Matrix

variable {N m : ℕ}

/-- `(A - w²)²`. -/
noncomputable def squared (A : Matrix (Fin N) (Fin N) ℂ) (w : ℝ) : Matrix (Fin N) (Fin N) ℂ :=
  (A - ((w : ℂ) ^ 2) • (1 : Matrix (Fin N) (Fin N) ℂ)) * (A - ((w : ℂ) ^ 2) • (1 : Matrix (Fin N) (Fin N) ℂ))

/-- C77 (selection).  If `A` has the modes `V` with eigenvalues `ω²`, the targeted problem has the same modes, in the order of
`|ω² - w²|`: its lowest bands are those whose *squared* frequencies are nearest to the square of the target. -/
theorem C77_selected_partial {A : Matrix (Fin N) (Fin N) ℂ} {P : (Fin N → ℂ) → Prop} {V : Matrix (Fin N) (Fin m) ℂ} {om : Fin m → ℝ}
    (hV : Eig.Spec.Modes A 1 P V (fun i => om i ^ 2)) (w : ℝ) :
    ∃ σ : Equiv.Perm (Fin m), Eig.Spec.Modes (squared A w) 1 P (V.submatrix id σ) (fun i => (om (σ i) ^ 2 - w ^ 2) ^ 2) ∧
      ∀ i j, i ≤ j → |om (σ i) ^ 2 - w ^ 2| ≤ |om (σ j) ^ 2 - w ^ 2| := by
  set f : Fin m → ℝ := fun i => |om i ^ 2 - w ^ 2| with hf
  have hmono : ∀ i j, i ≤ j → |om (Tuple.sort f i) ^ 2 - w ^ 2| ≤ |om (Tuple.sort f j) ^ 2 - w ^ 2| :=
    fun i j hij => Tuple.monotone_sort f hij
  refine ⟨Tuple.sort f, ⟨?_, ?_, fun i j hij => sq_le_sq.2 (hmono i j hij), fun x hx => ?_⟩, hmono⟩
  · have := hV.orthonormal
    rw [Matrix.mul_one] at this ⊢
    rw [conjTranspose_submatrix, ← Matrix.submatrix_mul _ _ _ _ _ Function.bijective_id, this, submatrix_one_equiv]
  · have he := hV.eigen
    rw [Matrix.one_mul] at he ⊢
    have h1 : (A - ((w : ℂ) ^ 2) • (1 : Matrix (Fin N) (Fin N) ℂ)) * V = V * diagonal (fun i => ((om i ^ 2 - w ^ 2 : ℝ) : ℂ)) := by
      rw [Matrix.sub_mul, he, Matrix.smul_mul, Matrix.one_mul]
      ext i j
      simp only [Matrix.sub_apply, Matrix.smul_apply, mul_diagonal, smul_eq_mul]
      push_cast
      ring
    have h2 : squared A w * V = V * diagonal (fun i => (((om i ^ 2 - w ^ 2) ^ 2 : ℝ) : ℂ)) := by
      unfold squared
      rw [Matrix.mul_assoc, h1, ← Matrix.mul_assoc, h1, Matrix.mul_assoc, diagonal_mul_diagonal]
      congr 2
      funext i
      push_cast
      ring
    ext i j
    have := congrFun (congrFun h2 i) (Tuple.sort f j)
    rw [mul_diagonal] at this ⊢
    exact this
  · obtain ⟨c, rfl⟩ := hV.complete x hx
    refine ⟨c ∘ Tuple.sort f, ?_⟩
    ext i
    simp only [mulVec, dotProduct, submatrix_apply, id, Function.comp]
    exact (Equiv.sum_comp (Tuple.sort f) (fun j => V i j * c j)).symm

/-- C77: what the solver reports for the targeted operator is, band by band, at least the squared distance of the j-th nearest squared
frequency. -/
theorem C77_reported {p : ℕ} {A : Matrix (Fin N) (Fin N) ℂ} {P : (Fin N → ℂ) → Prop} {V : Matrix (Fin N) (Fin m) ℂ} {om : Fin m → ℝ}
    (hV : Eig.Spec.Modes A 1 P V (fun i => om i ^ 2)) (w : ℝ) :
    ∃ σ : Equiv.Perm (Fin m), (∀ i j, i ≤ j → |om (σ i) ^ 2 - w ^ 2| ≤ |om (σ j) ^ 2 - w ^ 2|) ∧
      ∀ (a : Eig.Args N p) (e : Eig.Env N p), Eig.Good a → Eig.EnvOK e → a.A = squared A w → Eig.Bm a = 1 →
        (fun x => ∀ C, a.C = some C → C.mulVec x = x) = P →
        ∀ (fuel : ℕ) (Y : Eig.M N p) (work : ℕ → Eig.M N p) (sol : Eig.Solution N p), Eig.eigensolver a e fuel Y work = some sol →
        ∀ (j : Fin p) (k : Fin m), (k : ℕ) = j → (om (σ k) ^ 2 - w ^ 2) ^ 2 ≤ sol.vals j := by
  obtain ⟨σ, hσ, ho⟩ := C77_selected_partial hV w
  refine ⟨σ, ho, ?_⟩
  rintro a e g he hA hB rfl fuel Y work sol hs j k hjk
  refine Eig.C75_solver (V := V.submatrix id σ) (lam := fun i => (om (σ i) ^ 2 - w ^ 2) ^ 2) g he hs ?_ j k hjk
  rw [hA, hB]
  exact hσ

/-- The two-mode operator with frequencies 1/2 and 7/5. -/
noncomputable def twoModes : Matrix (Fin 2) (Fin 2) ℂ := !![1 / 4, 0; 0, 49 / 25]

theorem squared_twoModes : squared twoModes 1 = !![9 / 16, 0; 0, 576 / 625] := by
  unfold squared twoModes
  ext i j
  fin_cases i <;> fin_cases j <;> simp [Matrix.mul_apply, Fin.sum_univ_two] <;> norm_num

/-- C77, the documented claim ("the states whose frequencies have the smallest absolute difference with `target-freq`") is false: with modes
at the frequencies 1/2 and 7/5 and the target 1, the mode at 7/5 is nearer, but the lowest mode of the targeted problem, however it is
found, is the one at 1/2. -/
theorem C77_nearest_refuted : Eig.Spec.Modes twoModes 1 (fun _ => True) (1 : Matrix (Fin 2) (Fin 2) ℂ) (fun i => (![1 / 2, 7 / 5] i) ^ 2) ∧
    |(7 / 5 : ℝ) - 1| < |(1 / 2 : ℝ) - 1| ∧
    ∀ (V : Matrix (Fin 2) (Fin 2) ℂ) (lam : Fin 2 → ℝ), Eig.Spec.Modes (squared twoModes 1) 1 (fun _ => True) V lam →
      twoModes.mulVec (fun i => V i 0) = (((1 / 2 : ℝ) ^ 2 : ℝ) : ℂ) • (fun i => V i 0) := by
  refine ⟨⟨?_, ?_, ?_, fun x _ => ⟨x, by simp⟩⟩, ?_, ?_⟩
  · simp
  · ext i j
    fin_cases i <;> fin_cases j <;> simp [twoModes, Matrix.mul_apply, Fin.sum_univ_two] <;> norm_num
  · intro i j hij
    fin_cases i <;> fin_cases j <;> simp at hij ⊢ <;> norm_num
  · rw [abs_of_pos (by norm_num), abs_of_neg (by norm_num)]; norm_num
  · intro V lam hM
    have he := hM.eigen
    rw [squared_twoModes, Matrix.one_mul] at he
    have e : ∀ i j, (!![9 / 16, 0; 0, 576 / 625] * V : Matrix (Fin 2) (Fin 2) ℂ) i j = V i j * ((lam j : ℝ) : ℂ) := by
      intro i j
      rw [he, mul_diagonal]
    have e00 := e 0 0
    have e10 := e 1 0
    have e01 := e 0 1
    simp [Matrix.mul_apply, Fin.sum_univ_two] at e00 e10 e01
    have h10 : V 1 0 = 0 := by
      by_contra hne
      have l0 : ((lam 0 : ℝ) : ℂ) = ((576 / 625 : ℝ) : ℂ) := by
        have : V 1 0 * (576 / 625 - ((lam 0 : ℝ) : ℂ)) = 0 := by linear_combination e10
        have := (mul_eq_zero.1 this).resolve_left hne
        push_cast
        linear_combination -this
      have l0' : lam 0 = 576 / 625 := by exact_mod_cast l0
      have z0 : V 0 0 = 0 := by
        have : V 0 0 * (9 / 16 - ((lam 0 : ℝ) : ℂ)) = 0 := by linear_combination e00
        refine (mul_eq_zero.1 this).resolve_right ?_
        rw [l0']
        push_cast
        norm_num
      have hs := hM.sorted 0 1 (by decide)
      have z1 : V 0 1 = 0 := by
        have : V 0 1 * (9 / 16 - ((lam 1 : ℝ) : ℂ)) = 0 := by linear_combination e01
        refine (mul_eq_zero.1 this).resolve_right ?_
        intro h0
        have : ((lam 1 : ℝ) : ℂ) = ((9 / 16 : ℝ) : ℂ) := by push_cast; linear_combination -h0
        have : lam 1 = 9 / 16 := by exact_mod_cast this
        rw [l0', this] at hs
        norm_num at hs
      obtain ⟨c, hc⟩ := hM.complete (fun _ => 1) trivial
      have := congrFun hc 0
      simp [mulVec, dotProduct, Fin.sum_univ_two, z0, z1] at this
    ext i
    fin_cases i
    · simp [twoModes, mulVec, dotProduct, Fin.sum_univ_two]; norm_num
    · simp [twoModes, mulVec, dotProduct, Fin.sum_univ_two, h10]

end select

/-- Non-vacuity of C77: an operator on one planewave with wavevector (2, 0, 0) and `ε⁻¹ = 1/4`; a band with amplitudes (1, i) is an
eigenvector with eigenvalue 1. -/
noncomputable def oneWave : OpData :=
  ⟨1, 1, 1, fun _ => ⟨2, ⟨0, 1, 0⟩, ⟨0, 0, 1⟩⟩, fun _ => ⟨1 / 4, 1 / 4, 1 / 4, 0, 0, 0⟩, none, fun _ _ => 1, fun _ _ => 1⟩

example : (0 < oneWave.nfb) ∧ AdjointTransforms oneWave ∧ InverseTransforms oneWave ∧ (∀ G < oneWave.N, IsBasis ⟨2, 0, 0⟩ (oneWave.kpg G)) ∧
    (∀ G < oneWave.N, bandMaxwell oneWave (fun _ => (1, Complex.I)) G = times 1 (fun _ => (1, Complex.I)) G) := by
  refine ⟨by decide, ?_, ?_, ?_, ?_⟩
  · intro G _ r _; simp [oneWave]
  · intro G hG G' hG'
    simp only [oneWave, OpData.N, Nat.mul_one, Nat.lt_one_iff] at hG hG'
    subst hG; subst hG'
    simp [oneWave, OpData.N]
  · intro G _
    refine ⟨?_, ?_, ?_, ?_, ?_, ?_, ?_, ?_⟩ <;> simp [oneWave, V3.dot, V3.cross, V3.smul] <;> norm_num
  · intro G hG
    simp only [oneWave, OpData.N, Nat.mul_one, Nat.lt_one_iff] at hG
    subst hG
    refine Prod.ext ?_ ?_ <;> apply Complex.ext <;>
      simp [bandMaxwell, bandOp, colOp, oneWave, OpData.N, transform, crossC2t, crossT2c, HMat.mulVec, times] <;> norm_num

end Mpb.Target

import Verif.Mat.Lemmas
import Mathlib.Tactic.NormNum
import Mathlib.LinearAlgebra.Matrix.Notation
import Mathlib.LinearAlgebra.Matrix.Hermitian

/-!
# C23, C22, C64: matrix algebra

`mat h P ld r c` is the row-major matrix in memory; `Frame` says that nothing else changed (Spec.lean).
-/

namespace Mpb.Mat
open Spec

/-! ### C23: row-major products through a column-major BLAS -/

/-- C23 (partial: `k = 0` only with `b = 0`).  For all sizes (zero included), leading dimensions, flags and scalars,
`blasglue_gemm` computes `a op(A) op(B) + b C` and changes nothing else. -/
theorem C23_gemm_partial (ta tb : Trans) (m n k : ℕ) (a : ℝ) (A : Ptr) (fdA : ℕ) (B : Ptr) (fdB : ℕ) (b : ℝ) (C : Ptr) (fdC : ℕ)
    (h : Heap) (hk : k ≠ 0 ∨ b = 0) (hC : n ≤ fdC) (dA : A.arr ≠ C.arr) (dB : B.arr ≠ C.arr) :
    ∃ h', gemm ta tb m n k a A fdA B fdB b C fdC h = some h' ∧
      mat h' C fdC m n = (a : ℂ) • (opMat ta h A fdA m k * opMat tb h B fdB k n) + (b : ℂ) • mat h C fdC m n ∧
      Frame h h' C fdC m n := by
  unfold gemm
  by_cases hmn : m * n = 0
  · rw [if_pos hmn]
    refine ⟨h, rfl, ?_, fun _ _ _ => rfl⟩
    ext i j
    have h1 := i.2
    have h2 := j.2
    rcases Nat.mul_eq_zero.1 hmn with e | e <;> omega
  · rw [if_neg hmn]
    by_cases hk0 : k = 0
    · subst hk0
      have hb : b = 0 := hk.resolve_left (by simp)
      rw [if_pos rfl]
      obtain ⟨h1, h2⟩ := block_const C fdC m n hC (fun _ _ => 0) h
      refine ⟨_, rfl, ?_, h2⟩
      rw [h1, hb]
      ext i j
      simp [Matrix.mul_apply]
    · rw [if_neg hk0, if_pos ⟨fun e => dA (by rw [e]), fun e => dB (by rw [e])⟩]
      exact fgemm_spec ta tb m n k a A fdA B fdB b C fdC h hC dA dB

/-- The missing case is wrong: with `k = 0` the product is empty and `C := b C` is documented, but `C` is set to zero. -/
theorem C23_gemm_empty_refuted :
    ∃ (h h' : Heap) (A B C : Ptr), A.arr ≠ C.arr ∧ B.arr ≠ C.arr ∧
      gemm .N .N 1 1 0 1 A 0 B 1 1 C 1 h = some h' ∧
      mat h' C 1 1 1 ≠ ((1 : ℝ) : ℂ) • (opMat .N h A 0 1 0 * opMat .N h B 1 0 1) + ((1 : ℝ) : ℂ) • mat h C 1 1 1 := by
  refine ⟨fun _ _ => 1, _, ⟨0, 0⟩, ⟨1, 0⟩, ⟨2, 0⟩, by decide, by decide, rfl, fun e => ?_⟩
  have := congrFun (congrFun e 0) 0
  simp [mat, loop2, List.range_succ, wr, Matrix.mul_apply] at this

/-- C23: an aliased output is rejected before anything is written. -/
theorem C23_gemm_alias (ta tb : Trans) (m n k : ℕ) (a : ℝ) (A : Ptr) (fdA : ℕ) (B : Ptr) (fdB : ℕ) (b : ℝ) (C : Ptr) (fdC : ℕ)
    (h : Heap) (hm : m ≠ 0) (hn : n ≠ 0) (hk : k ≠ 0) (hal : A = C ∨ B = C) : gemm ta tb m n k a A fdA B fdB b C fdC h = none := by
  unfold gemm
  rw [if_neg (by simp [hm, hn]), if_neg hk, if_neg]
  rintro ⟨h1, h2⟩
  exact hal.elim h1 h2

/-- `op(A)` of the Hermitian rank-k update: `A^H` for the flags `'C'`, `'T'` and `A` for `'N'`, as an `n × k` matrix. -/
def herkOp (t : Trans) (h : Heap) (A : Ptr) (fdA n k : ℕ) : Matrix (Fin n) (Fin k) ℂ :=
  match t with
  | .N => mat h A fdA n k
  | _ => (mat h A fdA k n).conjTranspose

/-- C23 for the rank-k update (partial: `k ≠ 0`): the selected triangle becomes that of `a op(A) op(A)^H + b C`; nothing else is
changed. -/
theorem C23_herk_partial (upper : Bool) (t : Trans) (n k : ℕ) (a : ℝ) (A : Ptr) (fdA : ℕ) (b : ℝ) (C : Ptr) (fdC : ℕ) (h : Heap)
    (hk : k ≠ 0) (hC : n ≤ fdC) (dA : A.arr ≠ C.arr) :
    ∃ h', herk upper t n k a A fdA b C fdC h = some h' ∧
      (∀ i j : Fin n, (if upper then i ≤ j else j ≤ i) → mat h' C fdC n n i j =
        ((a : ℂ) • (herkOp t h A fdA n k * (herkOp t h A fdA n k).conjTranspose) + (b : ℂ) • mat h C fdC n n) i j) ∧
      (∀ kk aa, (∀ i j : Fin n, (if upper then i ≤ j else j ≤ i) → ¬ (kk = C.arr ∧ aa = C.off + (i * fdC + j))) →
        h' kk aa = h kk aa) := by
  unfold herk
  by_cases hn : n = 0
  · subst hn
    rw [if_pos rfl]
    exact ⟨h, rfl, fun i => i.elim0, fun _ _ _ => rfl⟩
  · rw [if_neg hn, if_neg hk, if_pos (fun e => dA (by rw [e]))]
    obtain ⟨h', e, h1, h2⟩ := fherk_spec upper (match t with | .C => .N | .T => .N | .N => .C) n k a A fdA b C fdC h hC dA
    refine ⟨h', e, fun i j hij => ?_, h2⟩
    rw [h1 i j hij]
    simp only [Matrix.add_apply, Matrix.smul_apply, Matrix.mul_apply, smul_eq_mul, Matrix.conjTranspose_apply]
    congr 2
    refine Finset.sum_congr rfl fun l _ => ?_
    cases t
    · simp only [fop, herkOp, mat_apply, RCLike.star_def, Complex.conj_conj]
      rw [mul_comm, Nat.add_comm, Nat.add_comm (l : ℕ)]
    all_goals
      simp only [fop, herkOp, mat_apply, RCLike.star_def, Complex.conj_conj, Matrix.conjTranspose_apply]
      rw [mul_comm, Nat.add_comm, Nat.add_comm (j : ℕ)]

/-- The missing case is wrong for `herk` too. -/
theorem C23_herk_empty_refuted :
    ∃ (h h' : Heap) (A C : Ptr), A.arr ≠ C.arr ∧ herk true .C 2 0 1 A 2 1 C 2 h = some h' ∧ mat h C 2 2 2 1 0 ≠ mat h' C 2 2 2 1 0 := by
  refine ⟨fun _ _ => 1, _, ⟨0, 0⟩, ⟨1, 0⟩, by decide, rfl, fun e => ?_⟩
  simp [mat, loop2, List.range_succ, wr, Function.update_apply] at e

example : ∃ h', gemm .C .N 2 3 4 2 ⟨0, 0⟩ 2 ⟨1, 5⟩ 7 3 ⟨2, 1⟩ 3 (fun _ a => a) = some h' :=
  let ⟨h', e, _⟩ := C23_gemm_partial .C .N 2 3 4 2 ⟨0, 0⟩ 2 ⟨1, 5⟩ 7 3 ⟨2, 1⟩ 3 (fun _ a => a) (Or.inl (by decide)) (by decide)
    (by decide) (by decide)
  ⟨h', e⟩

/-! ### C22: square matrices -/

/-- C22: `sqmatrix_copy_upper2full` yields the Hermitian matrix with the given upper triangle, also in place. -/
theorem C22_upper2full (F U : SQ) (h : Heap) (hp : F.p = U.p) (hd : F.data.arr ≠ U.data.arr ∨ F.data = U.data) :
    ∃ h', upper2full F U h = some h' ∧
      (∀ i j : Fin U.p, i ≤ j → mat h' F.data U.p U.p U.p i j = smat h U i j) ∧
      (∀ i j : Fin U.p, j < i → mat h' F.data U.p U.p U.p i j = (starRingEnd ℂ) (smat h U j i)) ∧
      Frame h h' F.data U.p U.p U.p := by
  unfold upper2full
  rw [if_pos hp]
  refine ⟨_, rfl, ?_⟩
  have hrow : ∀ s ∈ loop2 U.p U.p, ∀ t ∈ loop2 U.p U.p, s.1 * U.p + s.2 = t.1 * U.p + t.2 → s = t := by
    intro s hs t ht e
    have := rowMajor_inj (mem_loop2.1 hs).2 (mem_loop2.1 ht).2 e
    exact Prod.ext this.1 this.2
  rcases hd with hne | heq
  · obtain ⟨h1, h2⟩ := block_of F.data U.p U.p U.p le_rfl (fun h t => if t.2 < t.1 then
      (starRingEnd ℂ) (rd h U.data (t.2 * U.p + t.1)) else rd h U.data (t.1 * U.p + t.2)) h (fun s hs t ht hst h' v => by
        rw [rd_wr_other (fun e => hne e.1.symm), rd_wr_other (fun e => hne e.1.symm)])
    refine ⟨fun i j hij => ?_, fun i j hij => ?_, h2⟩
    · rw [h1, Matrix.of_apply, if_neg (by have : i.1 ≤ j.1 := hij; simpa using this)]; rfl
    · rw [h1, Matrix.of_apply, if_pos (by have : j.1 < i.1 := hij; simpa using this)]; rfl
  · rw [heq]
    -- the elements on and above the diagonal are assigned to themselves
    have hfilt : ∀ (l : List (ℕ × ℕ)) (h : Heap), l.foldl (fun h t =>
        wr h U.data (t.1 * U.p + t.2)
          (if t.2 < t.1 then (starRingEnd ℂ) (rd h U.data (t.2 * U.p + t.1)) else rd h U.data (t.1 * U.p + t.2))) h =
        (l.filter fun t => decide (t.2 < t.1)).foldl (fun h t =>
          wr h U.data (t.1 * U.p + t.2) ((starRingEnd ℂ) (rd h U.data (t.2 * U.p + t.1)))) h := by
      intro l
      induction l with
      | nil => intro h; rfl
      | cons t l ih =>
        intro h
        by_cases hlt : t.2 < t.1
        · rw [List.foldl_cons, if_pos hlt, ih, List.filter_cons_of_pos (by simpa using hlt), List.foldl_cons]
        · rw [List.foldl_cons, if_neg hlt, wr_rd_self, ih, List.filter_cons_of_neg (by simpa using hlt)]
    rw [hfilt]
    have hpw : ((loop2 U.p U.p).filter fun t => decide (t.2 < t.1)).Pairwise (fun s t : ℕ × ℕ =>
        s.1 * U.p + s.2 ≠ t.1 * U.p + t.2 ∧
        ∀ (h' : Heap) v, (starRingEnd ℂ) (rd (wr h' U.data (s.1 * U.p + s.2) v) U.data (t.2 * U.p + t.1)) =
          (starRingEnd ℂ) (rd h' U.data (t.2 * U.p + t.1))) := by
      refine List.Pairwise.imp_of_mem (fun {s t} hs ht hne => ?_) ((nodup_loop2 U.p U.p).filter _)
      rw [List.mem_filter] at hs ht
      simp only [decide_eq_true_eq] at hs ht
      refine ⟨fun e => hne (hrow s hs.1 t ht.1 e), fun h' v => ?_⟩
      rw [rd_wr_ne]
      intro e
      have := rowMajor_inj (mem_loop2.1 ht.1).1 (mem_loop2.1 hs.1).2 e
      omega
    obtain ⟨h1, h2⟩ := fold_wr U.data (fun t : ℕ × ℕ => t.1 * U.p + t.2)
      (fun h t => (starRingEnd ℂ) (rd h U.data (t.2 * U.p + t.1))) _ h hpw
    refine ⟨fun i j hij => ?_, fun i j hij => ?_, fun k a hne => ?_⟩
    · refine h2 _ _ fun t ht e => ?_
      rw [List.mem_filter] at ht
      simp only [decide_eq_true_eq] at ht
      have e2 : i.1 * U.p + j.1 = t.1 * U.p + t.2 := by have := e.2; omega
      have := rowMajor_inj j.2 (mem_loop2.1 ht.1).2 e2
      have : i.1 ≤ j.1 := hij
      omega
    · exact h1 (i, j) (by rw [List.mem_filter]; exact ⟨mem_loop2.2 ⟨i.2, j.2⟩, by simpa using hij⟩)
    · refine h2 k a fun t ht e => hne ⟨e.1, t.1, ?_, t.2, ?_, e.2⟩
      · exact (mem_loop2.1 (List.mem_filter.1 ht).1).1
      · exact (mem_loop2.1 (List.mem_filter.1 ht).1).2

/-- C22: `sqmatrix_symmetrize` computes `(A + A^H)/2`. -/
theorem C22_symmetrize (S A : SQ) (h : Heap) (hp : S.p = A.p) (hd : S.data.arr ≠ A.data.arr) :
    ∃ h', symmetrize S A h = some h' ∧
      mat h' S.data A.p A.p A.p = (1 / 2 : ℂ) • (smat h A + (smat h A).conjTranspose) ∧ Frame h h' S.data A.p A.p A.p := by
  unfold symmetrize
  rw [if_pos hp]
  obtain ⟨h1, h2⟩ := block_of S.data A.p A.p A.p le_rfl (fun h t =>
      (⟨0.5 * ((rd h A.data (t.1 * A.p + t.2)).re + (rd h A.data (t.2 * A.p + t.1)).re),
        0.5 * ((rd h A.data (t.1 * A.p + t.2)).im - (rd h A.data (t.2 * A.p + t.1)).im)⟩ : ℂ)) h (fun s hs t ht hst h' v => by
        rw [rd_wr_other (fun e => hd e.1.symm), rd_wr_other (fun e => hd e.1.symm)])
  refine ⟨_, rfl, ?_, h2⟩
  refine h1.trans ?_
  ext i j
  simp only [Matrix.of_apply, Matrix.smul_apply, Matrix.add_apply, Matrix.conjTranspose_apply, smat, mat_apply, RCLike.star_def,
    smul_eq_mul]
  apply Complex.ext
  · simp only [Complex.mul_re, Complex.add_re, Complex.add_im, Complex.conj_re, Complex.conj_im]
    norm_num
  · simp only [Complex.mul_im, Complex.add_re, Complex.add_im, Complex.conj_re, Complex.conj_im]
    norm_num
    ring

/-- C22: `sqmatrix_trace`. -/
theorem C22_trace (U : SQ) (h : Heap) : sqTrace U h = (smat h U).trace := by
  unfold sqTrace
  rw [foldl_sum_range (fun i => rd h U.data (i * U.p + i))]
  rfl

theorem dotc_full (r c : ℕ) (X Y : Ptr) (h : Heap) :
    dotc (r * c) X 1 Y 1 h = ((mat h X c r c).conjTranspose * mat h Y c r c).trace := by
  unfold dotc
  simp only [mul_one]
  rw [foldl_sum, zero_add]
  have hl : List.range (r * c) = (loop2 r c).map fun t => t.1 * c + t.2 := by
    apply List.ext_getElem?
    intro x
    by_cases hx : x < r * c
    · obtain ⟨i, hi, j, hj, rfl⟩ := lt_mul_iff.1 hx
      rw [List.getElem?_map, getElem?_loop2 hi hj, List.getElem?_range hx]
      rfl
    · rw [List.getElem?_eq_none (by simpa using hx), List.getElem?_eq_none (by simpa [length_loop2] using hx)]
  rw [hl, List.map_map, loop2, List.map_flatMap]
  have hs : ∀ (l : List ℕ) (g : ℕ → List ℂ), (l.flatMap g).sum = (l.map fun i => (g i).sum).sum := by
    intro l g
    induction l with
    | nil => rfl
    | cons a l ih => simp [List.flatMap_cons, ih]
  rw [hs]
  simp only [List.map_map]
  have e1 : ∀ (n : ℕ) (f : ℕ → ℂ), ((List.range n).map f).sum = ∑ i : Fin n, f i := by
    intro n f
    rw [Fin.sum_univ_eq_sum_range (fun i => f i) n]; rfl
  rw [e1]
  simp only [Matrix.trace, Matrix.diag, Matrix.mul_apply, Matrix.conjTranspose_apply]
  rw [Finset.sum_comm]
  refine Finset.sum_congr rfl fun i _ => ?_
  rw [e1]
  rfl

/-- C22: `sqmatrix_traceAtB` is the trace of `A^H B`. -/
theorem C22_traceAtB (A B : SQ) (h : Heap) (hp : A.p = B.p) :
    traceAtB A B h = some ((smat h A).conjTranspose * mat h B.data A.p A.p A.p).trace := by
  unfold traceAtB
  rw [if_pos hp, dotc_full]
  rfl

theorem opMat_dag (d : Bool) (h : Heap) (P : Ptr) (p : ℕ) :
    opMat (dag d) h P p p p = if d then (mat h P p p p).conjTranspose else mat h P p p p := by
  cases d <;> rfl

/-- C22: `sqmatrix_AeBC`: the product with optional adjoints. -/
theorem C22_AeBC (A B C : SQ) (bd cd : Bool) (h : Heap) (hb : A.p = B.p) (hc : A.p = C.p) (dB : B.data.arr ≠ A.data.arr)
    (dC : C.data.arr ≠ A.data.arr) :
    ∃ h', sqAeBC A B bd C cd h = some h' ∧
      smat h' A = (if bd then (mat h B.data A.p A.p A.p).conjTranspose else mat h B.data A.p A.p A.p) *
        (if cd then (mat h C.data A.p A.p A.p).conjTranspose else mat h C.data A.p A.p A.p) ∧
      Frame h h' A.data A.p A.p A.p := by
  unfold sqAeBC
  rw [if_pos ⟨hb, hc⟩, ← hb, ← hc]
  obtain ⟨h', e, h1, h2⟩ := C23_gemm_partial (dag bd) (dag cd) A.p A.p A.p 1 B.data A.p C.data A.p 0 A.data A.p h (Or.inr rfl) le_rfl dB dC
  refine ⟨h', e, ?_, h2⟩
  rw [smat, h1, opMat_dag, opMat_dag]
  simp

/-- C22: `sqmatrix_ApaBC`: `A += a B C` with optional adjoints. -/
theorem C22_ApaBC (A : SQ) (a : ℝ) (B C : SQ) (bd cd : Bool) (h : Heap) (hb : A.p = B.p) (hc : A.p = C.p)
    (dB : B.data.arr ≠ A.data.arr) (dC : C.data.arr ≠ A.data.arr) :
    ∃ h', sqApaBC A a B bd C cd h = some h' ∧
      smat h' A = smat h A + (a : ℂ) • ((if bd then (mat h B.data A.p A.p A.p).conjTranspose else mat h B.data A.p A.p A.p) *
        (if cd then (mat h C.data A.p A.p A.p).conjTranspose else mat h C.data A.p A.p A.p)) ∧
      Frame h h' A.data A.p A.p A.p := by
  unfold sqApaBC
  rw [if_pos ⟨hb, hc⟩, ← hb, ← hc]
  by_cases h0 : A.p = 0
  · refine ⟨h, by rw [gemm, if_pos (by simp [h0])], ?_, fun _ _ _ => rfl⟩
    ext i j
    have := i.2
    omega
  obtain ⟨h', e, h1, h2⟩ := C23_gemm_partial (dag bd) (dag cd) A.p A.p A.p a B.data A.p C.data A.p 1 A.data A.p h (Or.inl h0) le_rfl dB dC
  refine ⟨h', e, ?_, h2⟩
  rw [smat, h1, opMat_dag, opMat_dag, smat, add_comm]
  simp

theorem mat_of_line {h' : Heap} {P : Ptr} {r c : ℕ} {f : ℕ → ℂ} (e : ∀ i < r * c, rd h' P i = f i) :
    mat h' P c r c = Matrix.of fun (i : Fin r) (j : Fin c) => f (i * c + j) := by
  ext i j
  exact e _ (rowMajor_lt i.2 j.2)

/-- C22: `sqmatrix_ApaB`: `A += a B`, for distinct arguments and also for `A = B`. -/
theorem C22_ApaB (A : SQ) (a : ℝ) (B : SQ) (h : Heap) (hp : A.p = B.p) (hd : B.data.arr ≠ A.data.arr ∨ B.data = A.data) :
    ∃ h', sqApaB A a B h = some h' ∧ smat h' A = smat h A + (a : ℂ) • mat h B.data A.p A.p A.p ∧ Frame h h' A.data A.p A.p A.p := by
  unfold sqApaB
  rw [if_pos hp]
  obtain ⟨h1, h2⟩ := axpy_spec (A.p * A.p) a B.data A.data h hd
  refine ⟨_, rfl, ?_, frame_full h2⟩
  rw [smat, mat_of_line h1]
  rfl

theorem lincomb (r c : ℕ) (a b : ℝ) (X Y : Ptr) (h : Heap) (hd : Y.arr ≠ X.arr ∨ Y = X) :
    ∃ h', (open Classical in axpy (r * c) (b : ℂ) Y 1 X 1 (if a ≠ 1 then scal (r * c) (a : ℂ) X 1 h else h)) = h' ∧
      (∀ i < r * c, rd h' X i = a * rd h X i + b * (if Y = X then a * rd h X i else rd h Y i)) ∧ Frame h h' X c r c := by
  refine ⟨_, rfl, ?_⟩
  have hs : ∀ g : Heap, ((∀ i < r * c, rd g X i = a * rd h X i) ∧ (∀ k b, (∀ i < r * c, ¬ (k = X.arr ∧ b = X.off + i)) → g k b = h k b)) →
      (∀ i < r * c, rd (axpy (r * c) (b : ℂ) Y 1 X 1 g) X i = a * rd h X i + b * (if Y = X then a * rd h X i else rd h Y i)) ∧
      Frame h (axpy (r * c) (b : ℂ) Y 1 X 1 g) X c r c := by
    rintro g ⟨g1, g2⟩
    obtain ⟨h1, h2⟩ := axpy_spec (r * c) b Y X g hd
    refine ⟨fun i hi => ?_, Frame.trans (frame_full g2) (frame_full h2)⟩
    rw [h1 i hi, g1 i hi]
    by_cases e : Y = X
    · rw [if_pos e, e, g1 i hi]
    · rw [if_neg e]
      have hne : Y.arr ≠ X.arr := hd.resolve_right e
      have : rd g Y i = rd h Y i := g2 _ _ fun _ _ e' => hne e'.1
      rw [this]
  by_cases ha : a = 1
  · subst ha
    rw [if_neg (by simp)]
    exact hs h ⟨fun i _ => by simp, fun _ _ _ => rfl⟩
  · rw [if_pos ha]
    exact hs _ (scal_spec (r * c) a X h)

/-- C22: `sqmatrix_aApbB`: the linear combination, for distinct arguments. -/
theorem C22_aApbB_partial (a : ℝ) (A : SQ) (b : ℝ) (B : SQ) (h : Heap) (hp : A.p = B.p) (hd : B.data.arr ≠ A.data.arr) :
    ∃ h', sqaApbB a A b B h = some h' ∧ smat h' A = (a : ℂ) • smat h A + (b : ℂ) • mat h B.data A.p A.p A.p ∧
      Frame h h' A.data A.p A.p A.p := by
  unfold sqaApbB
  rw [if_pos hp]
  obtain ⟨h', e, h1, h2⟩ := lincomb A.p A.p a b A.data B.data h (Or.inl hd)
  refine ⟨h', by rw [← e], ?_, h2⟩
  rw [smat, mat_of_line h1]
  ext i j
  rw [Matrix.of_apply, if_neg (fun e => hd (by rw [e]))]
  rfl

/-- C22: for equal arguments `sqmatrix_aApbB` computes `a (1 + b) A` instead of the documented `(a + b) A`. -/
theorem C22_aApbB_alias (a : ℝ) (A : SQ) (b : ℝ) (h : Heap) :
    ∃ h', sqaApbB a A b A h = some h' ∧ smat h' A = ((a * (1 + b) : ℝ) : ℂ) • smat h A := by
  unfold sqaApbB
  rw [if_pos rfl]
  obtain ⟨h', e, h1, h2⟩ := lincomb A.p A.p a b A.data A.data h (Or.inr rfl)
  refine ⟨h', by rw [← e], ?_⟩
  rw [smat, mat_of_line h1]
  ext i j
  rw [Matrix.of_apply, if_pos rfl, Matrix.smul_apply, smul_eq_mul]
  simp only [smat, mat_apply]
  push_cast
  ring

/-- The documentation "A and B may be equal" is wrong: `2 A + 1 A` gives `4 A`. -/
theorem C22_aApbB_alias_refuted : ∃ (A : SQ) (h h' : Heap), sqaApbB 2 A 1 A h = some h' ∧
    smat h' A ≠ ((2 : ℝ) : ℂ) • smat h A + ((1 : ℝ) : ℂ) • smat h A := by
  obtain ⟨h', e, h1⟩ := C22_aApbB_alias 2 ⟨1, 1, ⟨0, 0⟩⟩ 1 (fun _ _ => 1)
  refine ⟨_, _, h', e, fun hc => ?_⟩
  rw [h1] at hc
  have := congrFun (congrFun hc 0) 0
  simp only [Matrix.smul_apply, Matrix.add_apply, smat, mat_apply, rd, smul_eq_mul, mul_one] at this
  norm_num at this

/-- C22: `sqmatrix_copy`. -/
theorem C22_copy (A B : SQ) (h : Heap) (hp : A.p = B.p) (hd : B.data.arr ≠ A.data.arr ∨ B.data = A.data) :
    ∃ h', sqCopy A B h = some h' ∧ smat h' A = mat h B.data A.p A.p A.p ∧ Frame h h' A.data A.p A.p A.p := by
  unfold sqCopy
  rw [if_pos hp]
  obtain ⟨h1, h2⟩ := copy_spec (A.p * A.p) B.data A.data h hd
  exact ⟨_, rfl, by rw [smat, mat_of_line h1]; rfl, frame_full h2⟩

/-- What LAPACK's `potrf`/`potri` (`hetrf`/`hetri`) with `uplo = 'L'` promise: on success the lower triangle of the column-major
array holds that of the inverse of the (Hermitian) column-major matrix; nothing outside the array block changes. -/
def InvContract (lapack : Ptr → ℕ → Heap → Option Heap) (P : Ptr) (p : ℕ) (h : Heap) : Prop :=
  ∀ h', lapack P p h = some h' → (mat h P p p p).conjTranspose = mat h P p p p →
    IsUnit (mat h P p p p).det ∧
    (∀ i j : Fin p, j ≤ i → rd h' P (i + j * p) = ((mat h P p p p).transpose)⁻¹ i j) ∧ Frame h h' P p p p

/-- C22: when `sqmatrix_invert` reports success, `U` holds the inverse of the Hermitian matrix it held before. -/
theorem C22_invert (lapack : Ptr → ℕ → Heap → Option Heap) (U : SQ) (h : Heap) (hL : InvContract lapack U.data U.p h)
    (hU : (smat h U).IsHermitian) :
    (sqInvert lapack U h).1 = true →
      smat (sqInvert lapack U h).2 U = (smat h U)⁻¹ ∧ smat (sqInvert lapack U h).2 U * smat h U = 1 ∧
      Frame h (sqInvert lapack U h).2 U.data U.p U.p U.p := by
  unfold sqInvert
  cases hl : lapack U.data U.p h with
  | none => simp
  | some h1 =>
    intro _
    simp only
    obtain ⟨hdet, hlow, hfr⟩ := hL _ hl hU
    obtain ⟨m1, m2, m3⟩ := mirrorUpper_spec U.data U.p h1
    have hinv : (mat h U.data U.p U.p U.p)⁻¹.conjTranspose = (mat h U.data U.p U.p U.p)⁻¹ := by
      rw [Matrix.conjTranspose_nonsing_inv]
      exact congrArg _ hU
    have hup : ∀ i j : Fin U.p, i ≤ j → mat h1 U.data U.p U.p U.p i j = (smat h U)⁻¹ i j := by
      intro i j hij
      have := hlow j i hij
      rw [← Matrix.transpose_nonsing_inv, Matrix.transpose_apply] at this
      rw [mat_apply, Nat.add_comm]
      exact this
    have hm : smat (mirrorUpper U.data U.p h1) U = (smat h U)⁻¹ := by
      ext i j
      rcases le_or_gt i j with hij | hij
      · exact (m1 i j hij).trans (hup i j hij)
      · refine (m2 j i hij).trans ?_
        rw [hup j i hij.le]
        exact congrFun (congrFun hinv i) j
    exact ⟨hm, by rw [hm]; exact Matrix.nonsing_inv_mul _ hdet, Frame.trans hfr m3⟩

/-- What LAPACK's `heev` promises on the column-major array: orthonormal eigenvectors in the columns, ascending eigenvalues,
only the array and the workspace change. -/
def HeevContract (heev : Ptr → ℕ → Ptr → Heap → Heap × (ℕ → ℝ)) (P : Ptr) (p : ℕ) (W : Ptr) (h : Heap) : Prop :=
  (mat h P p p p).conjTranspose = mat h P p p p →
    let r := heev P p W h
    let M := (mat h P p p p).transpose
    let V := (mat r.1 P p p p).transpose
    V.conjTranspose * V = 1 ∧ M * V = V * Matrix.diagonal (fun i : Fin p => (r.2 i : ℂ)) ∧
    (∀ i j : Fin p, i ≤ j → r.2 i ≤ r.2 j) ∧ (∀ k a, ¬ InBlock P p p p k a → k ≠ W.arr → r.1 k a = h k a)

/-- C22: `sqmatrix_eigensolve` leaves in `U` a unitary `U'` with `U = U'^H D U'` and ascending eigenvalues in `D`. -/
theorem C22_eigensolve (heev : Ptr → ℕ → Ptr → Heap → Heap × (ℕ → ℝ)) (U W : SQ) (h : Heap)
    (hH : HeevContract heev U.data U.p W.data h)
    (hU : (smat h U).IsHermitian) :
    let r := sqEigensolve heev U W h
    smat h U = (smat r.1 U).conjTranspose * Matrix.diagonal (fun i : Fin U.p => (r.2 i : ℂ)) * smat r.1 U ∧
    smat r.1 U * (smat r.1 U).conjTranspose = 1 ∧ (smat r.1 U).conjTranspose * smat r.1 U = 1 ∧
    (∀ i j : Fin U.p, i ≤ j → r.2 i ≤ r.2 j) ∧
    (∀ k a, ¬ InBlock U.data U.p U.p U.p k a → k ≠ W.data.arr → r.1 k a = h k a) := by
  intro r
  obtain ⟨h1, h2, h3, h5⟩ := hH hU
  change ((mat r.1 U.data U.p U.p U.p).transpose).conjTranspose * (mat r.1 U.data U.p U.p U.p).transpose = 1 at h1
  change (mat h U.data U.p U.p U.p).transpose * (mat r.1 U.data U.p U.p U.p).transpose =
    (mat r.1 U.data U.p U.p U.p).transpose * Matrix.diagonal (fun i : Fin U.p => (r.2 i : ℂ)) at h2
  have hu : smat r.1 U * (smat r.1 U).conjTranspose = 1 := by
    have := congrArg Matrix.transpose h1
    rw [Matrix.transpose_mul, Matrix.transpose_transpose, Matrix.transpose_one] at this
    exact this
  have hu' : (smat r.1 U).conjTranspose * smat r.1 U = 1 := mul_eq_one_comm.1 hu
  have h4 : smat r.1 U * smat h U = Matrix.diagonal (fun i : Fin U.p => (r.2 i : ℂ)) * smat r.1 U := by
    have := congrArg Matrix.transpose h2
    rw [Matrix.transpose_mul, Matrix.transpose_mul, Matrix.transpose_transpose, Matrix.transpose_transpose,
      Matrix.diagonal_transpose] at this
    exact this
  refine ⟨?_, hu, hu', h3, h5⟩
  rw [Matrix.mul_assoc, ← h4, ← Matrix.mul_assoc, hu', Matrix.one_mul]

/-- The rows of `W` after the scaling loop of `sqmatrix_sqrt`. -/
theorem sqrt_rows (p : ℕ) (U W : Ptr) (g : ℕ → ℂ) (hd : U.arr ≠ W.arr) (h : Heap) :
    let h' := (List.range p).foldl (fun h i =>
        let h := copy p (U.add (i * p)) 1 (W.add (i * p)) 1 h
        scal p (g i) (W.add (i * p)) 1 h) h
    mat h' W p p p = Matrix.diagonal (fun i : Fin p => g i) * mat h U p p p ∧ ∀ k a, k ≠ W.arr → h' k a = h k a := by
  intro h'
  have key : ∀ n ≤ p, let hn := (List.range n).foldl (fun h i =>
        let h := copy p (U.add (i * p)) 1 (W.add (i * p)) 1 h
        scal p (g i) (W.add (i * p)) 1 h) h
      (∀ i < n, ∀ j < p, rd hn W (i * p + j) = g i * rd h U (i * p + j)) ∧ ∀ k a, k ≠ W.arr → hn k a = h k a := by
    intro n
    induction n with
    | zero => intro _; exact ⟨fun i hi => by omega, fun _ _ _ => rfl⟩
    | succ n ih =>
      intro hn
      obtain ⟨i1, i2⟩ := ih (by omega)
      rw [List.range_succ, List.foldl_append]
      simp only [List.foldl_cons, List.foldl_nil]
      generalize (List.range n).foldl _ h = hm at i1 i2
      obtain ⟨c1, c2⟩ := copy_spec p (U.add (n * p)) (W.add (n * p)) hm (Or.inl hd)
      obtain ⟨s1, s2⟩ := scal_spec p (g n) (W.add (n * p)) (copy p (U.add (n * p)) 1 (W.add (n * p)) 1 hm)
      refine ⟨fun i hi j hj => ?_, fun k a hk => ?_⟩
      · by_cases e : i = n
        · subst e
          rw [← rd_add, s1 j hj, c1 j hj, rd_add]
          unfold rd
          rw [i2 _ _ hd]
        · have hin : i < n := by omega
          have hlt : i * p + j < n * p := rowMajor_lt hin hj
          rw [← i1 i hin j hj]
          unfold rd
          rw [s2 _ _ (fun x _ e' => by have := e'.2; simp only [Ptr.add] at this; omega),
            c2 _ _ (fun x _ e' => by have := e'.2; simp only [Ptr.add] at this; omega)]
      · rw [s2 _ _ (fun x _ e' => hk e'.1), c2 _ _ (fun x _ e' => hk e'.1), i2 k a hk]
  obtain ⟨k1, k2⟩ := key p le_rfl
  refine ⟨?_, k2⟩
  ext i j
  rw [Matrix.diagonal_mul]
  exact k1 i i.2 j j.2

/-- C22: `sqmatrix_sqrt` succeeds for a Hermitian matrix with positive eigenvalues and leaves in `Usqrt` a Hermitian matrix whose
square is `U`; only `Usqrt`, `U` and the scratch matrix change. -/
theorem C22_sqrt (heev : Ptr → ℕ → Ptr → Heap → Heap × (ℕ → ℝ)) (R U W : SQ) (h : Heap)
    (hH : HeevContract heev U.data U.p W.data h)
    (hU : (smat h U).IsHermitian) (hR : R.p = U.p) (hW : U.p = W.p) (d1 : U.data.arr ≠ R.data.arr) (d2 : W.data.arr ≠ R.data.arr)
    (d3 : U.data.arr ≠ W.data.arr) (hpos : ∀ i < U.p, 0 < (sqEigensolve heev U W h).2 i) :
    ∃ h', sqSqrt heev R U W h = some h' ∧
      mat h' R.data U.p U.p U.p * mat h' R.data U.p U.p U.p = smat h U ∧
      (mat h' R.data U.p U.p U.p).IsHermitian ∧
      (∀ k a, k ≠ U.data.arr → k ≠ W.data.arr → ¬ InBlock R.data U.p U.p U.p k a → h' k a = h k a) := by
  unfold sqSqrt
  rw [if_pos ⟨hR, hW⟩]
  simp only
  rw [if_pos hpos]
  obtain ⟨s1, s2, s3, s4, s5⟩ := C22_eigensolve heev U W h hH hU
  generalize sqEigensolve heev U W h = s at *
  obtain ⟨w1, w2⟩ := sqrt_rows U.p U.data W.data (fun i => ((Real.sqrt (s.2 i) : ℝ) : ℂ)) d3 s.1
  obtain ⟨h', e, a1, a2⟩ := C22_AeBC R U W true false _ hR (hR.trans hW) d1 d2
  refine ⟨h', e, ?_⟩
  rw [← and_assoc]
  refine ⟨?_, fun k a k1 k2 k3 => by
    rw [a2 k a (by rw [hR]; exact k3), w2 k a k2, s5 k a (fun hb => k1 hb.1) k2]⟩
  rw [smat] at a1
  rw [hR] at a1
  simp only [if_true, Bool.false_eq_true, if_false] at a1
  rw [w1, mat_congr (fun a => w2 _ _ d3)] at a1
  rw [a1]
  change (smat s.1 U).conjTranspose * (_ * smat s.1 U) * ((smat s.1 U).conjTranspose * (_ * smat s.1 U)) = _ ∧
    ((smat s.1 U).conjTranspose * (_ * smat s.1 U)).conjTranspose = (smat s.1 U).conjTranspose * (_ * smat s.1 U)
  generalize smat s.1 U = V at *
  constructor
  · calc V.conjTranspose * (Matrix.diagonal (fun i : Fin U.p => ((Real.sqrt (s.2 i) : ℝ) : ℂ)) * V) *
          (V.conjTranspose * (Matrix.diagonal (fun i : Fin U.p => ((Real.sqrt (s.2 i) : ℝ) : ℂ)) * V))
        = V.conjTranspose * (Matrix.diagonal (fun i : Fin U.p => ((Real.sqrt (s.2 i) : ℝ) : ℂ)) * (V * V.conjTranspose) *
          Matrix.diagonal (fun i : Fin U.p => ((Real.sqrt (s.2 i) : ℝ) : ℂ))) * V := by simp only [Matrix.mul_assoc]
      _ = V.conjTranspose * Matrix.diagonal (fun i : Fin U.p => (s.2 i : ℂ)) * V := by
          rw [s2, Matrix.mul_one, Matrix.diagonal_mul_diagonal]
          congr 3
          ext i
          rw [← Complex.ofReal_mul, Real.mul_self_sqrt (hpos i i.2).le]
      _ = smat h U := s1.symm
  · rw [Matrix.conjTranspose_mul, Matrix.conjTranspose_mul, Matrix.conjTranspose_conjTranspose, Matrix.diagonal_conjTranspose,
      Matrix.mul_assoc]
    congr 3
    ext i
    simp

/-- A heap with the matrix `diag(1, 4)` in array 0. -/
noncomputable def exHeap : Heap := fun k a => if k = 0 then (if a = 0 then 1 else if a = 3 then 4 else 0) else 0

theorem exHeap_mat : mat exHeap ⟨0, 0⟩ 2 2 2 = Matrix.diagonal ![1, 4] := by
  ext i j
  fin_cases i <;> fin_cases j <;> simp [mat, exHeap]

/-- A heap with the identity in array 0. -/
noncomputable def exHeap1 : Heap := fun k a => if k = 0 then (if a = 0 then 1 else if a = 3 then 1 else 0) else 0

theorem exHeap1_mat : mat exHeap1 ⟨0, 0⟩ 2 2 2 = 1 := by
  ext i j
  fin_cases i <;> fin_cases j <;> simp [mat, exHeap1]

/-- A behaviour of `heev` on that heap which meets the contract. -/
theorem ex_heev : HeevContract (fun _ _ _ _ => (exHeap1, fun i => if i = 0 then 1 else 4)) ⟨0, 0⟩ 2 ⟨1, 0⟩ exHeap := by
  intro _
  simp only
  refine ⟨?_, ?_, ?_, ?_⟩
  · rw [exHeap1_mat]; simp
  · rw [exHeap1_mat, exHeap_mat]
    simp only [Matrix.transpose_one, Matrix.mul_one, Matrix.one_mul, Matrix.diagonal_transpose]
    congr 1
    ext i
    fin_cases i <;> simp
  · intro i j hij
    fin_cases i <;> fin_cases j <;> simp_all
  · intro k a hb _
    unfold exHeap1 exHeap
    by_cases hk : k = 0
    · rw [if_pos hk, if_pos hk]
      have h0 : a ≠ 0 := fun e => hb ⟨hk, 0, by decide, 0, by decide, by simpa using e⟩
      have h3 : a ≠ 3 := fun e => hb ⟨hk, 1, by decide, 1, by decide, by simpa using e⟩
      rw [if_neg h0, if_neg h3, if_neg h0, if_neg h3]
    · rw [if_neg hk, if_neg hk]

example : ∃ h', sqSqrt (fun _ _ _ _ => (exHeap1, fun i => if i = 0 then 1 else 4)) ⟨2, 2, ⟨2, 0⟩⟩ ⟨2, 2, ⟨0, 0⟩⟩ ⟨2, 2, ⟨1, 0⟩⟩ exHeap =
    some h' :=
  let ⟨h', e, _⟩ := C22_sqrt _ ⟨2, 2, ⟨2, 0⟩⟩ ⟨2, 2, ⟨0, 0⟩⟩ ⟨2, 2, ⟨1, 0⟩⟩ exHeap ex_heev (by
      change Matrix.IsHermitian (mat exHeap ⟨0, 0⟩ 2 2 2)
      rw [exHeap_mat]
      refine Matrix.isHermitian_diagonal_of_self_adjoint _ ?_
      ext i
      fin_cases i <;> simp) rfl rfl (by decide) (by decide) (by decide) (by
      intro i _
      change (0 : ℝ) < if i = 0 then 1 else 4
      split <;> norm_num)
  ⟨h', e⟩

example : ∃ h', sqAeBC ⟨3, 3, ⟨0, 0⟩⟩ ⟨3, 4, ⟨1, 0⟩⟩ true ⟨3, 3, ⟨1, 0⟩⟩ false (fun _ a => a) = some h' :=
  let ⟨h', e, _⟩ := C22_AeBC ⟨3, 3, ⟨0, 0⟩⟩ ⟨3, 4, ⟨1, 0⟩⟩ ⟨3, 3, ⟨1, 0⟩⟩ true false (fun _ a => a) rfl rfl (by decide) (by decide)
  ⟨h', e⟩

end Mpb.Mat

import Verif.Mat.Spec
import Mathlib.Tactic.Ring
import Mathlib.Tactic.Linarith

/-! # Lemmas on the heap model -/

namespace Mpb.Mat
open Spec

theorem wr_same (h : Heap) (P : Ptr) (i : ℕ) (v : ℂ) : wr h P i v P.arr (P.off + i) = v := by simp [wr]

theorem wr_other {h : Heap} {P : Ptr} {i : ℕ} {v : ℂ} {k a : ℕ} (hne : ¬ (k = P.arr ∧ a = P.off + i)) : wr h P i v k a = h k a := by
  unfold wr
  by_cases hk : k = P.arr
  · subst hk
    rw [Function.update_self, Function.update_of_ne]
    exact fun e => hne ⟨rfl, e⟩
  · rw [Function.update_of_ne hk]

theorem rd_wr_same (h : Heap) (P : Ptr) (i : ℕ) (v : ℂ) : rd (wr h P i v) P i = v := wr_same h P i v

theorem rd_wr_other {h : Heap} {P Q : Ptr} {i j : ℕ} {v : ℂ} (hne : ¬ (Q.arr = P.arr ∧ Q.off + j = P.off + i)) :
    rd (wr h P i v) Q j = rd h Q j := wr_other hne

theorem rd_wr_ne {h : Heap} {P : Ptr} {i j : ℕ} {v : ℂ} (hne : j ≠ i) : rd (wr h P i v) P j = rd h P j :=
  rd_wr_other (by omega)

theorem wr_rd_self (h : Heap) (P : Ptr) (i : ℕ) : wr h P i (rd h P i) = h := by
  unfold wr rd
  rw [Function.update_eq_self, Function.update_eq_self]

theorem rd_add (h : Heap) (P : Ptr) (i j : ℕ) : rd h (P.add i) j = rd h P (i + j) := by simp [rd, Ptr.add, Nat.add_assoc]

theorem wr_add (h : Heap) (P : Ptr) (i j : ℕ) (v : ℂ) : wr h (P.add i) j v = wr h P (i + j) v := by simp [wr, Ptr.add, Nat.add_assoc]

/-- A loop of assignments `P[addr t] = f h t` where no assignment overwrites what a later one reads. -/
theorem fold_wr {ι : Type*} (P : Ptr) (addr : ι → ℕ) (f : Heap → ι → ℂ) : ∀ (l : List ι) (h : Heap),
    l.Pairwise (fun s t => addr s ≠ addr t ∧ ∀ h' v, f (wr h' P (addr s) v) t = f h' t) →
    (∀ t ∈ l, rd (l.foldl (fun h t => wr h P (addr t) (f h t)) h) P (addr t) = f h t) ∧
    (∀ k a, (∀ t ∈ l, ¬ (k = P.arr ∧ a = P.off + addr t)) → l.foldl (fun h t => wr h P (addr t) (f h t)) h k a = h k a) := by
  intro l
  induction l with
  | nil => intro h _; simp
  | cons s l ih =>
    intro h hp
    rw [List.pairwise_cons] at hp
    obtain ⟨hs, hl⟩ := hp
    obtain ⟨i1, i2⟩ := ih (wr h P (addr s) (f h s)) hl
    rw [List.foldl_cons]
    refine ⟨fun t ht => ?_, fun k a hne => ?_⟩
    · rcases List.mem_cons.1 ht with rfl | ht
      · unfold rd
        rw [i2 _ _ (fun t' ht' e => (hs t' ht').1 (by have := e.2; omega))]
        exact wr_same _ _ _ _
      · rw [i1 t ht, (hs t ht).2]
    · rw [i2 k a (fun t ht => hne t (List.mem_cons_of_mem _ ht)), wr_other (hne s (by simp))]

/-- A loop of assignments of values that do not depend on the current heap. -/
theorem fold_wr_const {ι : Type*} (P : Ptr) (addr : ι → ℕ) (v : ι → ℂ) (l : List ι) (h : Heap)
    (hp : l.Pairwise (fun s t => addr s ≠ addr t)) :
    (∀ t ∈ l, rd (l.foldl (fun h t => wr h P (addr t) (v t)) h) P (addr t) = v t) ∧
    (∀ k a, (∀ t ∈ l, ¬ (k = P.arr ∧ a = P.off + addr t)) → l.foldl (fun h t => wr h P (addr t) (v t)) h k a = h k a) :=
  fold_wr P addr (fun _ t => v t) l h (hp.imp fun hst => ⟨hst, fun _ _ => rfl⟩)

theorem pairwise_range (n : ℕ) : (List.range n).Pairwise (· < ·) := List.pairwise_lt_range

theorem pairwise_loop2 (n m : ℕ) : (loop2 n m).Pairwise (fun s t => s.1 < t.1 ∨ s.1 = t.1 ∧ s.2 < t.2) := by
  rw [loop2, List.pairwise_flatMap]
  refine ⟨fun i _ => ?_, ?_⟩
  · rw [List.pairwise_map]
    exact (pairwise_range m).imp fun {a b} hab => Or.inr ⟨rfl, hab⟩
  · refine (pairwise_range n).imp fun {a b} hab => ?_
    intro x hx y hy
    obtain ⟨j, _, rfl⟩ := List.mem_map.1 hx
    obtain ⟨j', _, rfl⟩ := List.mem_map.1 hy
    exact Or.inl hab

theorem loop2_addr_ne {n m ld : ℕ} (hm : m ≤ ld) :
    (loop2 n m).Pairwise (fun s t => s.1 * ld + s.2 ≠ t.1 * ld + t.2) := by
  refine (pairwise_loop2 n m).imp_of_mem fun {s t} hs ht hlt e => ?_
  have h1 := (mem_loop2.1 hs).2
  have h2 := (mem_loop2.1 ht).2
  have := rowMajor_inj (n := ld) (by omega) (by omega) e
  omega

theorem mat_apply (h : Heap) (P : Ptr) (ld r c : ℕ) (i : Fin r) (j : Fin c) : mat h P ld r c i j = rd h P (i * ld + j) := rfl

/-- Writing an `r × c` block with values not depending on the current heap. -/
theorem block_const (P : Ptr) (ld r c : ℕ) (hc : c ≤ ld) (v : ℕ → ℕ → ℂ) (h : Heap) :
    mat ((loop2 r c).foldl (fun h t => wr h P (t.1 * ld + t.2) (v t.1 t.2)) h) P ld r c = Matrix.of (fun (i : Fin r) (j : Fin c) => v i j) ∧
    Frame h ((loop2 r c).foldl (fun h t => wr h P (t.1 * ld + t.2) (v t.1 t.2)) h) P ld r c := by
  obtain ⟨h1, h2⟩ := fold_wr_const P (fun t : ℕ × ℕ => t.1 * ld + t.2) (fun t => v t.1 t.2) (loop2 r c) h (loop2_addr_ne hc)
  refine ⟨?_, ?_⟩
  · ext i j
    exact h1 (i, j) (mem_loop2.2 ⟨i.2, j.2⟩)
  · intro k a hne
    refine h2 k a fun t ht e => hne ⟨e.1, t.1, (mem_loop2.1 ht).1, t.2, (mem_loop2.1 ht).2, e.2⟩

/-- Writing an `r × c` block with values that depend on what has not yet been written. -/
theorem block_of (P : Ptr) (ld r c : ℕ) (hc : c ≤ ld) (f : Heap → ℕ × ℕ → ℂ) (h : Heap)
    (hf : ∀ s ∈ loop2 r c, ∀ t ∈ loop2 r c, s ≠ t → ∀ h' v, f (wr h' P (s.1 * ld + s.2) v) t = f h' t) :
    mat ((loop2 r c).foldl (fun h t => wr h P (t.1 * ld + t.2) (f h t)) h) P ld r c = Matrix.of (fun (i : Fin r) (j : Fin c) => f h ((i : ℕ), (j : ℕ))) ∧
    Frame h ((loop2 r c).foldl (fun h t => wr h P (t.1 * ld + t.2) (f h t)) h) P ld r c := by
  obtain ⟨h1, h2⟩ := fold_wr P (fun t : ℕ × ℕ => t.1 * ld + t.2) f (loop2 r c) h
    ((loop2_addr_ne hc).imp_of_mem fun {s t} hs ht hne =>
      ⟨hne, hf s hs t ht (fun e => hne (by rw [e]))⟩)
  refine ⟨?_, ?_⟩
  · ext i j
    exact h1 (i, j) (mem_loop2.2 ⟨i.2, j.2⟩)
  · intro k a hne
    refine h2 k a fun t ht e => hne ⟨e.1, t.1, (mem_loop2.1 ht).1, t.2, (mem_loop2.1 ht).2, e.2⟩

/-- One-dimensional loops with stride `inc > 0`. -/
theorem line_of (P : Ptr) (inc n : ℕ) (hinc : 0 < inc) (f : Heap → ℕ → ℂ) (h : Heap)
    (hf : ∀ s < n, ∀ t < n, s ≠ t → ∀ h' v, f (wr h' P (s * inc) v) t = f h' t) :
    (∀ i < n, rd ((List.range n).foldl (fun h t => wr h P (t * inc) (f h t)) h) P (i * inc) = f h i) ∧
    (∀ k a, (∀ i < n, ¬ (k = P.arr ∧ a = P.off + i * inc)) →
      (List.range n).foldl (fun h t => wr h P (t * inc) (f h t)) h k a = h k a) := by
  obtain ⟨h1, h2⟩ := fold_wr P (fun t : ℕ => t * inc) f (List.range n) h
    ((pairwise_range n).imp_of_mem fun {s t} hs ht hlt => by
      have hne : s ≠ t := by omega
      refine ⟨fun e => hne (Nat.eq_of_mul_eq_mul_right hinc e), hf s (List.mem_range.1 hs) t (List.mem_range.1 ht) hne⟩)
  refine ⟨fun i hi => h1 i (List.mem_range.2 hi), fun k a hne => h2 k a fun t ht => hne t (List.mem_range.1 ht)⟩

theorem foldl_sum {ι : Type*} (f : ι → ℂ) : ∀ (l : List ι) (s : ℂ), l.foldl (fun s i => s + f i) s = s + (l.map f).sum := by
  intro l
  induction l with
  | nil => intro s; simp
  | cons a l ih => intro s; rw [List.foldl_cons, ih, List.map_cons, List.sum_cons, add_assoc]

theorem foldl_sum_range (f : ℕ → ℂ) (n : ℕ) : (List.range n).foldl (fun s i => s + f i) 0 = ∑ i : Fin n, f i := by
  rw [foldl_sum, zero_add, Fin.sum_univ_eq_sum_range (fun i => f i) n]
  rfl

/-- A heap unchanged on an array. -/
theorem mat_congr {h h' : Heap} {P : Ptr} {ld r c : ℕ} (e : ∀ a, h' P.arr a = h P.arr a) : mat h' P ld r c = mat h P ld r c := by
  ext i j; exact e _

theorem opMat_congr {t : Trans} {h h' : Heap} {P : Ptr} {ld r c : ℕ} (e : ∀ a, h' P.arr a = h P.arr a) :
    opMat t h' P ld r c = opMat t h P ld r c := by
  cases t <;> simp only [opMat, mat_congr e]

theorem opMat_apply (t : Trans) (h : Heap) (P : Ptr) (ld r c : ℕ) (i : Fin r) (l : Fin c) :
    opMat t h P ld r c i l = (match t with
      | .N => rd h P (i * ld + l)
      | .T => rd h P (l * ld + i)
      | .C => (starRingEnd ℂ) (rd h P (l * ld + i))) := by
  cases t <;> rfl

/-- The column-major `op` is the transpose of the row-major one. -/
theorem fop_eq (t : Trans) (h : Heap) (P : Ptr) (ld r c : ℕ) (i : Fin r) (l : Fin c) : fop t h P ld l i = opMat t h P ld r c i l := by
  rw [opMat_apply]
  cases t <;> simp only [fop, Nat.add_comm]

theorem fgemm_spec (ta tb : Trans) (m n k : ℕ) (a : ℝ) (A : Ptr) (fdA : ℕ) (B : Ptr) (fdB : ℕ) (b : ℝ) (C : Ptr) (fdC : ℕ) (h : Heap)
    (hC : n ≤ fdC) (dA : A.arr ≠ C.arr) (dB : B.arr ≠ C.arr) :
    ∃ h', fgemm tb ta n m k a B fdB A fdA b C fdC h = some h' ∧
      mat h' C fdC m n = (a : ℂ) • (opMat ta h A fdA m k * opMat tb h B fdB k n) + (b : ℂ) • mat h C fdC m n ∧
      Frame h h' C fdC m n := by
  unfold fgemm
  rw [if_neg (by simp [dA, dB])]
  refine ⟨_, rfl, ?_⟩
  simp only [Nat.add_comm _ (_ * fdC)]
  obtain ⟨h1, h2⟩ := block_const C fdC m n hC (fun i j => a * ∑ l ∈ Finset.range k, fop tb h B fdB j l * fop ta h A fdA l i +
    b * rd h C (i * fdC + j)) h
  refine ⟨?_, h2⟩
  rw [h1]
  ext i j
  simp only [Matrix.of_apply, Matrix.add_apply, Matrix.smul_apply, Matrix.mul_apply, smul_eq_mul, mat_apply]
  rw [← Fin.sum_univ_eq_sum_range (fun l => fop tb h B fdB j l * fop ta h A fdA l i) k]
  congr 2
  refine Finset.sum_congr rfl fun l _ => ?_
  rw [← fop_eq ta h A fdA m k i l, ← fop_eq tb h B fdB k n l j, mul_comm]

theorem fherk_spec (upper : Bool) (t : Trans) (n k : ℕ) (a : ℝ) (A : Ptr) (fdA : ℕ) (b : ℝ) (C : Ptr) (fdC : ℕ) (h : Heap)
    (hC : n ≤ fdC) (dA : A.arr ≠ C.arr) :
    ∃ h', fherk upper t n k a A fdA b C fdC h = some h' ∧
      (∀ i j : Fin n, (if upper then i ≤ j else j ≤ i) → mat h' C fdC n n i j =
        a * ∑ l : Fin k, fop t h A fdA j l * (starRingEnd ℂ) (fop t h A fdA i l) + b * mat h C fdC n n i j) ∧
      (∀ kk aa, (∀ i j : Fin n, (if upper then i ≤ j else j ≤ i) → ¬ (kk = C.arr ∧ aa = C.off + (i * fdC + j))) →
        h' kk aa = h kk aa) := by
  unfold fherk
  rw [if_neg dA]
  refine ⟨_, rfl, ?_⟩
  simp only [Nat.add_comm _ (_ * fdC)]
  obtain ⟨h1, h2⟩ := fold_wr_const C (fun t : ℕ × ℕ => t.1 * fdC + t.2) (fun ji =>
    (a : ℂ) * ∑ l ∈ Finset.range k, fop t h A fdA ji.2 l * (starRingEnd ℂ) (fop t h A fdA ji.1 l) +
        b * rd h C (ji.1 * fdC + ji.2)) ((loop2 n n).filter fun t => if upper then t.1 ≤ t.2 else t.2 ≤ t.1) h
        ((loop2_addr_ne hC).filter _)
  refine ⟨fun i j hij => ?_, fun kk aa hne => h2 kk aa fun t ht e => ?_⟩
  · have := h1 (i, j) (by
      rw [List.mem_filter]
      refine ⟨mem_loop2.2 ⟨i.2, j.2⟩, ?_⟩
      cases upper <;> simpa using hij)
    rw [mat_apply, mat_apply, this, ← Fin.sum_univ_eq_sum_range (fun l => fop t h A fdA j l * (starRingEnd ℂ) (fop t h A fdA i l)) k]
  · rw [List.mem_filter] at ht
    obtain ⟨ht, hc⟩ := ht
    have := mem_loop2.1 ht
    refine hne ⟨t.1, this.1⟩ ⟨t.2, this.2⟩ ?_ e
    cases upper <;> simpa using hc

theorem mirrorUpper_spec (d : Ptr) (p : ℕ) (h : Heap) :
    (∀ i j : Fin p, i ≤ j → mat (mirrorUpper d p h) d p p p i j = mat h d p p p i j) ∧
    (∀ i j : Fin p, i < j → mat (mirrorUpper d p h) d p p p j i = (starRingEnd ℂ) (mat h d p p p i j)) ∧
    Frame h (mirrorUpper d p h) d p p p := by
  have hpw : ((loop2 p p).filter fun t => decide (t.1 < t.2)).Pairwise (fun s t : ℕ × ℕ => s.2 * p + s.1 ≠ t.2 * p + t.1 ∧
      ∀ (h' : Heap) v, (starRingEnd ℂ) (rd (wr h' d (s.2 * p + s.1) v) d (t.1 * p + t.2)) =
        (starRingEnd ℂ) (rd h' d (t.1 * p + t.2))) := by
    have h0 := (nodup_loop2 p p).filter (fun t => decide (t.1 < t.2))
    refine List.Pairwise.imp_of_mem (fun {s t} hs ht hne => ?_) h0
    rw [List.mem_filter, mem_loop2] at hs ht
    simp only [decide_eq_true_eq] at hs ht
    refine ⟨fun e => hne ?_, fun h' v => ?_⟩
    · have := rowMajor_inj hs.1.1 ht.1.1 e
      exact Prod.ext this.2 this.1
    · rw [rd_wr_ne]
      intro e
      have := rowMajor_inj ht.1.2 hs.1.1 e
      omega
  obtain ⟨h1, h2⟩ := fold_wr d (fun t : ℕ × ℕ => t.2 * p + t.1) (fun h t => (starRingEnd ℂ) (rd h d (t.1 * p + t.2)))
    ((loop2 p p).filter fun t => decide (t.1 < t.2)) h hpw
  refine ⟨fun i j hij => ?_, fun i j hij => ?_, fun k a hne => ?_⟩
  · rw [mat_apply, mat_apply]
    refine h2 _ _ fun t ht e => ?_
    rw [List.mem_filter, mem_loop2] at ht
    simp only [decide_eq_true_eq] at ht
    have e2 : i.1 * p + j.1 = t.2 * p + t.1 := by have := e.2; omega
    have := rowMajor_inj j.2 ht.1.1 e2
    have : i.1 ≤ j.1 := hij
    omega
  · exact h1 (i, j) (by rw [List.mem_filter, mem_loop2]; exact ⟨⟨i.2, j.2⟩, by simpa using hij⟩)
  · refine h2 k a fun t ht e => hne ⟨e.1, t.2, ?_, t.1, ?_, e.2⟩
    · rw [List.mem_filter, mem_loop2] at ht; exact ht.1.2
    · rw [List.mem_filter, mem_loop2] at ht; exact ht.1.1

theorem copy_spec (n : ℕ) (x y : Ptr) (h : Heap) (hxy : x.arr ≠ y.arr ∨ x = y) :
    (∀ i < n, rd (copy n x 1 y 1 h) y i = rd h x i) ∧
    (∀ k a, (∀ i < n, ¬ (k = y.arr ∧ a = y.off + i)) → copy n x 1 y 1 h k a = h k a) := by
  have := line_of y 1 n one_pos (fun h i => rd h x (i * 1)) h (fun s _ t _ hst h' v => by
    rw [rd_wr_other]
    rcases hxy with hne | rfl
    · exact fun e => hne e.1
    · omega)
  simpa [copy] using this

/-- `copy` with strides between different arrays. -/
theorem copy_stride_spec (n : ℕ) (x : Ptr) (incx : ℕ) (y : Ptr) (incy : ℕ) (h : Heap) (hy : 0 < incy) (hxy : x.arr ≠ y.arr) :
    (∀ i < n, rd (copy n x incx y incy h) y (i * incy) = rd h x (i * incx)) ∧
    (∀ k a, (∀ i < n, ¬ (k = y.arr ∧ a = y.off + i * incy)) → copy n x incx y incy h k a = h k a) :=
  line_of y incy n hy (fun h i => rd h x (i * incx)) h (fun s _ t _ _ h' v => by
    rw [rd_wr_other]
    exact fun e => hxy e.1)

theorem scal_spec (n : ℕ) (a : ℂ) (x : Ptr) (h : Heap) :
    (∀ i < n, rd (scal n a x 1 h) x i = a * rd h x i) ∧
    (∀ k b, (∀ i < n, ¬ (k = x.arr ∧ b = x.off + i)) → scal n a x 1 h k b = h k b) := by
  have := line_of x 1 n one_pos (fun h i => a * rd h x (i * 1)) h (fun s _ t _ hst h' v => by
    rw [rd_wr_ne (by omega)])
  simpa [scal] using this

theorem axpy_spec (n : ℕ) (a : ℂ) (x y : Ptr) (h : Heap) (hxy : x.arr ≠ y.arr ∨ x = y) :
    (∀ i < n, rd (axpy n a x 1 y 1 h) y i = rd h y i + a * rd h x i) ∧
    (∀ k b, (∀ i < n, ¬ (k = y.arr ∧ b = y.off + i)) → axpy n a x 1 y 1 h k b = h k b) := by
  have := line_of y 1 n one_pos (fun h i => rd h y (i * 1) + a * rd h x (i * 1)) h (fun s _ t _ hst h' v => by
    rw [rd_wr_ne (by omega), rd_wr_other]
    rcases hxy with hne | rfl
    · exact fun e => hne e.1
    · omega)
  simpa [axpy] using this

theorem zero_spec (d : Ptr) (n : ℕ) (h : Heap) :
    (∀ k b, k ≠ d.arr → zero d n h k b = h k b) ∧ (∀ k b, (∀ i < n, ¬ (k = d.arr ∧ b = d.off + i)) → zero d n h k b = h k b) := by
  have := line_of d 1 n one_pos (fun _ _ => 0) h (fun s _ t _ _ h' v => rfl)
  simp only [mul_one] at this
  exact ⟨fun k b hk => this.2 k b fun i _ e => hk e.1, this.2⟩

/-- Row-major addresses of an `r × c` block with `ld = c` fill an interval. -/
theorem lt_mul_iff {r c x : ℕ} : x < r * c ↔ ∃ i < r, ∃ j < c, x = i * c + j := by
  constructor
  · intro hx
    have hc : 0 < c := Nat.pos_of_ne_zero (by rintro rfl; simp at hx)
    refine ⟨x / c, Nat.div_lt_of_lt_mul (by rwa [Nat.mul_comm]), x % c, Nat.mod_lt _ hc, ?_⟩
    rw [Nat.mul_comm]; exact (Nat.div_add_mod x c).symm
  · rintro ⟨i, hi, j, hj, rfl⟩
    exact rowMajor_lt hi hj

theorem frame_full {h h' : Heap} {P : Ptr} {r c : ℕ}
    (hh : ∀ k b, (∀ i < r * c, ¬ (k = P.arr ∧ b = P.off + i)) → h' k b = h k b) : Frame h h' P c r c := by
  intro k a hne
  refine hh k a fun x hx e => ?_
  obtain ⟨i, hi, j, hj, rfl⟩ := lt_mul_iff.1 hx
  exact hne ⟨e.1, i, hi, j, hj, e.2⟩

theorem Spec.Frame.arr {h h' : Heap} {P : Ptr} {ld r c : ℕ} (hf : Frame h h' P ld r c) {k : ℕ} (hk : k ≠ P.arr) (a : ℕ) : h' k a = h k a :=
  hf k a fun e => hk e.1

theorem Spec.Frame.trans {h h' h'' : Heap} {P : Ptr} {ld r c : ℕ} (h1 : Frame h h' P ld r c) (h2 : Frame h' h'' P ld r c) :
    Frame h h'' P ld r c := fun k a hne => (h2 k a hne).trans (h1 k a hne)

end Mpb.Mat

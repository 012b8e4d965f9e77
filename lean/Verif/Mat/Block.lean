import Verif.Mat.Props

/-!
# C18 and C64: blocks of eigenvectors
-/

namespace Mpb.Mat
open Spec

/-- Copying `r` rows of `c` elements between two arrays. -/
theorem copy_rows (r c : ℕ) (S : Ptr) (lds : ℕ) (U : Ptr) (ldu : ℕ) (hc : c ≤ ldu) (hd : S.arr ≠ U.arr) (h : Heap) :
    let h' := (List.range r).foldl (fun h i => copy c (S.add (i * lds)) 1 (U.add (i * ldu)) 1 h) h
    mat h' U ldu r c = mat h S lds r c ∧ Frame h h' U ldu r c := by
  intro h'
  have key : ∀ n ≤ r, let hn := (List.range n).foldl (fun h i => copy c (S.add (i * lds)) 1 (U.add (i * ldu)) 1 h) h
      (∀ i < n, ∀ j < c, rd hn U (i * ldu + j) = rd h S (i * lds + j)) ∧ Frame h hn U ldu n c := by
    intro n
    induction n with
    | zero => intro _; exact ⟨fun i hi => by omega, fun _ _ _ => rfl⟩
    | succ n ih =>
      intro hn
      obtain ⟨i1, i2⟩ := ih (by omega)
      rw [List.range_succ, List.foldl_append]
      simp only [List.foldl_cons, List.foldl_nil]
      generalize (List.range n).foldl _ h = hm at i1 i2
      obtain ⟨c1, c2⟩ := copy_spec c (S.add (n * lds)) (U.add (n * ldu)) hm (Or.inl hd)
      refine ⟨fun i hi j hj => ?_, fun k a hne => ?_⟩
      · by_cases e : i = n
        · subst e
          rw [← rd_add, c1 j hj, rd_add]
          exact i2.arr hd _
        · have hin : i < n := by omega
          have hlt : i * ldu + j < n * ldu := rowMajor_lt hin (by omega)
          rw [← i1 i hin j hj]
          unfold rd
          rw [c2 _ _ (fun x _ e' => by have := e'.2; simp only [Ptr.add] at this; omega)]
      · rw [c2 k a, i2 k a]
        · rintro ⟨hk, i, hi, j, hj, e⟩
          exact hne ⟨hk, i, by omega, j, hj, e⟩
        · rintro x hx ⟨hk, e⟩
          refine hne ⟨hk, n, by omega, x, hx, ?_⟩
          rw [e]; simp only [Ptr.add]; omega
  obtain ⟨k1, k2⟩ := key r le_rfl
  refine ⟨?_, k2⟩
  ext i j
  exact k1 i i.2 j j.2

/-! ### C18 -/

/-- C18: `evectmatrix_copy`. -/
theorem C18_copy (X Y : EM) (h : Heap) (hn : X.n = Y.n) (hp : X.p = Y.p) (hd : Y.data.arr ≠ X.data.arr ∨ Y.data = X.data) :
    ∃ h', emCopy X Y h = some h' ∧ emat h' X = mat h Y.data X.p X.n X.p ∧ Frame h h' X.data X.p X.n X.p := by
  unfold emCopy
  rw [if_pos ⟨hn, hp⟩]
  obtain ⟨h1, h2⟩ := copy_spec (X.n * X.p) Y.data X.data h hd
  exact ⟨_, rfl, by rw [emat, mat_of_line h1]; rfl, frame_full h2⟩

/-- C18: a slice copy inside the matrices moves exactly columns `iy, ..., iy+p-1` of `Y` to columns `ix, ..., ix+p-1` of `X`;
everything else keeps its value. -/
theorem C18_copy_slice (X Y : EM) (ix iy p : ℕ) (h : Heap) (hx : ix + p ≤ X.p) (hy : iy + p ≤ Y.p) (hn : X.n = Y.n)
    (hd : Y.data.arr ≠ X.data.arr) :
    ∃ h', copySlice X Y ix iy p h = some h' ∧
      mat h' (X.data.add ix) X.p X.n p = mat h (Y.data.add iy) Y.p X.n p ∧ Frame h h' (X.data.add ix) X.p X.n p := by
  unfold copySlice
  rw [if_pos ⟨by omega, by omega, by omega, by omega, hn⟩]
  by_cases hfull : (ix : ℤ) = 0 ∧ (iy : ℤ) = 0 ∧ (p : ℤ) = X.p ∧ (p : ℤ) = Y.p
  · rw [if_pos hfull]
    obtain ⟨e1, e2, e3, e4⟩ := hfull
    have e1 : ix = 0 := by omega
    have e2 : iy = 0 := by omega
    have e3 : p = X.p := by omega
    have e4 : p = Y.p := by omega
    subst e1 e2
    obtain ⟨h', e, h1, h2⟩ := C18_copy X Y h hn (by omega) (Or.inl hd)
    refine ⟨h', e, ?_, ?_⟩
    · rw [e3]
      have : Y.p = X.p := by omega
      rw [this]
      exact h1
    · rw [e3]; exact h2
  · rw [if_neg hfull]
    by_cases h1 : (p : ℤ) = 1
    · rw [if_pos h1]
      have h1 : p = 1 := by omega
      subst h1
      obtain ⟨c1, c2⟩ := copy_stride_spec X.n (Y.data.add iy) Y.p (X.data.add ix) X.p h (by omega) hd
      refine ⟨_, rfl, ?_, fun k a hne => c2 k a fun i hi e => hne ⟨e.1, i, hi, 0, by omega, by rw [e.2]; rfl⟩⟩
      ext i j
      have hj : (j : ℕ) = 0 := by omega
      rw [mat_apply, mat_apply, hj]
      exact c1 i i.2
    · rw [if_neg h1]
      simp only [Int.toNat_natCast]
      have hadd : ∀ (P : Ptr) (a b : ℕ), P.add (a + b) = (P.add a).add b := fun P a b => by simp [Ptr.add, Nat.add_assoc]
      simp only [hadd]
      obtain ⟨r1, r2⟩ := copy_rows X.n p (Y.data.add iy) Y.p (X.data.add ix) X.p (by omega) hd h
      exact ⟨_, rfl, r1, r2⟩

/-- C18: every other request is rejected, except for a negative count, which does nothing. -/
theorem C18_copy_slice_reject (X Y : EM) (ix iy p : ℤ) (h : Heap) (hn : X.n = Y.n) :
    (copySlice X Y ix iy p h = none ↔ ¬ (ix + p ≤ X.p ∧ iy + p ≤ Y.p ∧ 0 ≤ ix ∧ 0 ≤ iy)) ∧
    (p < 0 → ∀ h', copySlice X Y ix iy p h = some h' → h' = h) := by
  unfold copySlice
  constructor
  · by_cases hc : ix + p ≤ X.p ∧ iy + p ≤ Y.p ∧ ix ≥ 0 ∧ iy ≥ 0 ∧ X.n = Y.n
    · rw [if_pos hc]
      have : ix + p ≤ X.p ∧ iy + p ≤ Y.p ∧ 0 ≤ ix ∧ 0 ≤ iy := ⟨hc.1, hc.2.1, hc.2.2.1, hc.2.2.2.1⟩
      simp only [this, not_true_eq_false, iff_false, and_self]
      split
      · rename_i hh
        rw [emCopy, if_pos ⟨hn, by omega⟩]; simp
      · split <;> simp
    · rw [if_neg hc]
      simp only [true_iff]
      exact fun hh => hc ⟨hh.1, hh.2.1, hh.2.2.1, hh.2.2.2, hn⟩
  · intro hp h' e
    split at e
    · rw [if_neg (by omega), if_neg (by omega)] at e
      have : p.toNat = 0 := by omega
      rw [this] at e
      have hid : ∀ (l : List ℕ) (g : Heap), l.foldl (fun h i => copy 0 (Y.data.add (iy.toNat + i * Y.p)) 1
          (X.data.add (ix.toNat + i * X.p)) 1 h) g = g := by
        intro l
        induction l with
        | nil => intro g; rfl
        | cons a l ih => intro g; rw [List.foldl_cons, ih]; rfl
      rw [hid] at e
      exact (Option.some.inj e).symm
    · simp at e

theorem move_shrink (d : Ptr) (n p0 p : ℕ) (hlt : p < p0) (rows : ℕ) (hr : rows ≤ n) (h : Heap) :
    (∀ i < rows, ∀ j < p, rd (moveAll d p0 p (loop2 rows p) h) d (i * p + j) = rd h d (i * p0 + j)) ∧
    Frame h (moveAll d p0 p (loop2 rows p) h) d p rows p := by
  have _ := hr
  obtain ⟨h1, h2⟩ := fold_wr d (fun t : ℕ × ℕ => t.1 * p + t.2) (fun h t => rd h d (t.1 * p0 + t.2)) (loop2 rows p) h
    ((pairwise_loop2 rows p).imp_of_mem fun {s t} hs ht hst => by
      have b1 := (mem_loop2.1 hs).2
      have b2 := (mem_loop2.1 ht).2
      have hlt' : s.1 * p + s.2 < t.1 * p + t.2 := by
        rcases hst with h | ⟨h, h'⟩
        · have := rowMajor_lt (n := p) h b1; omega
        · rw [h]; omega
      have hle : t.1 * p ≤ t.1 * p0 := Nat.mul_le_mul_left _ hlt.le
      exact ⟨by omega, fun h' v => rd_wr_ne (by omega)⟩)
  exact ⟨fun i hi j hj => h1 (i, j) (mem_loop2.2 ⟨hi, hj⟩), fun k a hne => h2 k a fun t ht e =>
    hne ⟨e.1, t.1, (mem_loop2.1 ht).1, t.2, (mem_loop2.1 ht).2, e.2⟩⟩

theorem move_grow (d : Ptr) (n p0 p : ℕ) (hle : p0 ≤ p) (h : Heap) :
    (∀ i < n, ∀ j < p0, rd (moveAll d p0 p (loop2 n p0).reverse h) d (i * p + j) = rd h d (i * p0 + j)) ∧
    Frame h (moveAll d p0 p (loop2 n p0).reverse h) d p n p0 := by
  obtain ⟨h1, h2⟩ := fold_wr d (fun t : ℕ × ℕ => t.1 * p + t.2) (fun h t => rd h d (t.1 * p0 + t.2)) (loop2 n p0).reverse h
    (by
      rw [List.pairwise_reverse]
      refine (pairwise_loop2 n p0).imp_of_mem fun {t s} ht hs hst => ?_
      have b1 := (mem_loop2.1 hs).2
      have b2 := (mem_loop2.1 ht).2
      have hlt' : t.1 * p0 + t.2 < s.1 * p0 + s.2 := by
        rcases hst with h | ⟨h, h'⟩
        · have := rowMajor_lt (n := p0) h b2; omega
        · rw [h]; omega
      have hlt'' : t.1 * p + t.2 < s.1 * p + s.2 := by
        rcases hst with h | ⟨h, h'⟩
        · have := rowMajor_lt (n := p) h (show t.2 < p by omega); omega
        · rw [h]; omega
      have hle' : s.1 * p0 ≤ s.1 * p := Nat.mul_le_mul_left _ hle
      exact ⟨by omega, fun h' v => rd_wr_ne (by omega)⟩)
  exact ⟨fun i hi j hj => h1 (i, j) (List.mem_reverse.2 (mem_loop2.2 ⟨hi, hj⟩)), fun k a hne => h2 k a fun t ht e =>
    hne ⟨e.1, t.1, (mem_loop2.1 (List.mem_reverse.1 ht)).1, t.2, (mem_loop2.1 (List.mem_reverse.1 ht)).2, e.2⟩⟩

/-- C18: resizing with data preservation keeps every retained entry, and only touches the allocation; growing beyond the
allocation is rejected; without preservation the memory is untouched. -/
theorem C18_resize (A : EM) (p : ℕ) (preserve : Bool) (h : Heap) (hA : A.p ≤ A.allocP) :
    (emResize A p preserve h = none ↔ A.allocP < p) ∧
    ∀ A' h', emResize A p preserve h = some (A', h') →
      A' = { A with p := p } ∧
      (preserve = true → ∀ i < A.n, ∀ j < p, j < A.p → rd h' A'.data (i * A'.p + j) = rd h A.data (i * A.p + j)) ∧
      (preserve = false → h' = h) ∧
      (∀ k a, ¬ (k = A.data.arr ∧ A.data.off ≤ a ∧ a < A.data.off + A.n * A.allocP) → h' k a = h k a) := by
  unfold emResize
  by_cases hp : p ≤ A.allocP
  · rw [if_pos hp]
    refine ⟨by simp; omega, fun A' h' e => ?_⟩
    simp only [Option.some.injEq, Prod.mk.injEq] at e
    obtain ⟨rfl, rfl⟩ := e
    refine ⟨rfl, ?_⟩
    cases preserve
    · exact ⟨by simp, fun _ => by simp, fun k a _ => by simp⟩
    · simp only [if_true, forall_const, Bool.true_eq_false, false_implies, true_and]
      by_cases hlt : p < A.p
      · rw [if_pos hlt]
        obtain ⟨m1, m2⟩ := move_shrink A.data A.n A.p p hlt A.n le_rfl h
        refine ⟨fun i hi j hj _ => m1 i hi j hj, fun k a hne => m2 k a ?_⟩
        rintro ⟨hk, i, hi, j, hj, rfl⟩
        have := rowMajor_lt (n := p) hi hj
        have : A.n * p ≤ A.n * A.allocP := Nat.mul_le_mul_left _ hp
        exact hne ⟨hk, by omega, by omega⟩
      · rw [if_neg hlt]
        obtain ⟨m1, m2⟩ := move_grow A.data A.n A.p p (by omega) h
        refine ⟨fun i hi j _ hj => m1 i hi j hj, fun k a hne => m2 k a ?_⟩
        rintro ⟨hk, i, hi, j, hj, rfl⟩
        have := rowMajor_lt (n := p) hi (show j < p by omega)
        have : A.n * p ≤ A.n * A.allocP := Nat.mul_le_mul_left _ hp
        exact hne ⟨hk, by omega, by omega⟩
  · rw [if_neg hp]
    simp; omega

/-- C22: the same for square matrices. -/
theorem C22_resize (A : SQ) (p : ℕ) (preserve : Bool) (h : Heap) (hA : A.p ≤ A.allocP) :
    (sqResize A p preserve h = none ↔ A.allocP < p) ∧
    ∀ A' h', sqResize A p preserve h = some (A', h') →
      A' = { A with p := p } ∧
      (preserve = true → ∀ i < p, i < A.p → ∀ j < p, j < A.p → rd h' A'.data (i * A'.p + j) = rd h A.data (i * A.p + j)) ∧
      (preserve = false → h' = h) ∧
      (∀ k a, ¬ (k = A.data.arr ∧ A.data.off ≤ a ∧ a < A.data.off + A.allocP * A.allocP) → h' k a = h k a) := by
  unfold sqResize
  by_cases hp : p ≤ A.allocP
  · rw [if_pos hp]
    refine ⟨by simp; omega, fun A' h' e => ?_⟩
    simp only [Option.some.injEq, Prod.mk.injEq] at e
    obtain ⟨rfl, rfl⟩ := e
    refine ⟨rfl, ?_⟩
    cases preserve
    · exact ⟨by simp, fun _ => by simp, fun k a _ => by simp⟩
    · simp only [if_true, forall_const, Bool.true_eq_false, false_implies, true_and]
      by_cases hlt : p < A.p
      · rw [if_pos hlt]
        obtain ⟨m1, m2⟩ := move_shrink A.data p A.p p hlt p le_rfl h
        refine ⟨fun i hi _ j hj _ => m1 i hi j hj, fun k a hne => m2 k a ?_⟩
        rintro ⟨hk, i, hi, j, hj, rfl⟩
        have := rowMajor_lt (n := p) hi hj
        have : p * p ≤ A.allocP * A.allocP := Nat.mul_le_mul hp hp
        exact hne ⟨hk, by omega, by omega⟩
      · rw [if_neg hlt]
        obtain ⟨m1, m2⟩ := move_grow A.data A.p A.p p (by omega) h
        refine ⟨fun i _ hi j _ hj => m1 i hi j hj, fun k a hne => m2 k a ?_⟩
        rintro ⟨hk, i, hi, j, hj, rfl⟩
        have := rowMajor_lt (n := p) hi (show j < p by omega)
        have : A.p * p ≤ A.allocP * A.allocP := Nat.mul_le_mul hA hp
        exact hne ⟨hk, by omega, by omega⟩
  · rw [if_neg hp]
    simp; omega

/-- C18: `(get-eigenvectors b nb)` is a copy of bands `b, ..., b+nb-1`; invalid ranges are rejected. -/
theorem C18_get (H : EM) (b nb : ℕ) (fresh : Ptr) (h : Heap) (hb : 1 ≤ b) (hnb : b - 1 + nb ≤ H.p) (hf : H.data.arr ≠ fresh.arr) :
    ∃ m h', getEigenvectors H b nb fresh h = some (m, h') ∧ m = ⟨H.n, nb, nb, fresh⟩ ∧
      (∀ i < H.n, ∀ j < nb, rd h' fresh (i * nb + j) = rd h H.data (i * H.p + (b - 1 + j))) ∧
      (∀ k a, k ≠ fresh.arr → h' k a = h k a) := by
  unfold getEigenvectors slice2scm
  rw [if_pos ⟨by omega, by omega, by omega⟩]
  obtain ⟨h', e, h1, h2⟩ := C18_copy_slice ⟨H.n, nb, nb, fresh⟩ H 0 (b - 1) nb h (by simp) hnb rfl hf
  have eb : ((b - 1 : ℕ) : ℤ) = (b : ℤ) - 1 := by omega
  rw [eb] at e
  refine ⟨⟨H.n, nb, nb, fresh⟩, h', ?_, rfl, fun i hi j hj => ?_, fun k a hk => h2.arr hk a⟩
  · simp only [Int.toNat_natCast]
    have e' : copySlice ⟨H.n, nb, nb, fresh⟩ H 0 ((b : ℤ) - 1) nb h = some h' := e
    rw [e']; rfl
  · have := congrFun (congrFun h1 ⟨i, hi⟩) ⟨j, hj⟩
    rw [mat_apply, mat_apply, rd_add, rd_add] at this
    simp only [Nat.zero_add] at this
    rw [this]
    congr 1
    omega

/-- C18: `(set-eigenvectors m b)` overwrites bands `b, ..., b+m.p-1` with those of `m` and nothing else. -/
theorem C18_set (H m : EM) (b : ℕ) (h : Heap) (hb : 1 ≤ b) (hnb : b - 1 + m.p ≤ H.p) (hn : H.n = m.n)
    (hd : m.data.arr ≠ H.data.arr) :
    ∃ h', setEigenvectors H m b h = some h' ∧
      (∀ i < H.n, ∀ j < H.p, rd h' H.data (i * H.p + j) =
        if b - 1 ≤ j ∧ j < b - 1 + m.p then rd h m.data (i * m.p + (j - (b - 1))) else rd h H.data (i * H.p + j)) ∧
      (∀ k a, k ≠ H.data.arr → h' k a = h k a) := by
  unfold setEigenvectors
  obtain ⟨h', e, h1, h2⟩ := C18_copy_slice H m (b - 1) 0 m.p h hnb (by simp) hn hd
  have eb : ((b - 1 : ℕ) : ℤ) = (b : ℤ) - 1 := by omega
  rw [eb] at e
  refine ⟨h', e, fun i hi j hj => ?_, fun k a hk => h2.arr hk a⟩
  by_cases hin : b - 1 ≤ j ∧ j < b - 1 + m.p
  · rw [if_pos hin]
    have := congrFun (congrFun h1 ⟨i, hi⟩) ⟨j - (b - 1), by omega⟩
    rw [mat_apply, mat_apply, rd_add, rd_add] at this
    simp only [Nat.zero_add] at this
    rw [← this]
    congr 1
    omega
  · rw [if_neg hin]
    refine h2 _ _ ?_
    rintro ⟨_, i', hi', j', hj', e'⟩
    simp only [Ptr.add] at e'
    have e2 : i * H.p + j = i' * H.p + (b - 1 + j') := by omega
    have := rowMajor_inj hj (by omega) e2
    omega

/-- C18: getting bands and setting them again restores them whatever happened in between to the eigenvectors; here, directly: the
eigenvectors are unchanged by the round trip. -/
theorem C18_get_set (H : EM) (b nb : ℕ) (fresh : Ptr) (h : Heap) (hb : 1 ≤ b) (hnb : b - 1 + nb ≤ H.p) (hf : H.data.arr ≠ fresh.arr)
    (m : EM) (h1 : Heap) (hg : getEigenvectors H b nb fresh h = some (m, h1)) (g : Heap) (hgm : ∀ a, g fresh.arr a = h1 fresh.arr a) :
    ∃ h2, setEigenvectors H m b g = some h2 ∧ ∀ i < H.n, ∀ j, b - 1 ≤ j → j < b - 1 + nb →
      rd h2 H.data (i * H.p + j) = rd h H.data (i * H.p + j) := by
  obtain ⟨m', h1', e, rfl, r1, -⟩ := C18_get H b nb fresh h hb hnb hf
  rw [hg, Option.some.injEq, Prod.mk.injEq] at e
  obtain ⟨rfl, rfl⟩ := e
  obtain ⟨h2, e2, s1, -⟩ := C18_set H ⟨H.n, nb, nb, fresh⟩ b g hb hnb rfl (Ne.symm hf)
  refine ⟨h2, e2, fun i hi j hj1 hj2 => ?_⟩
  rw [s1 i hi j (by omega), if_pos ⟨hj1, hj2⟩]
  have : rd g fresh (i * nb + (j - (b - 1))) = rd h1 fresh (i * nb + (j - (b - 1))) := hgm _
  change rd g fresh (i * nb + (j - (b - 1))) = _
  rw [this, r1 i hi _ (by omega)]
  congr 1
  omega

/-- C64: `(scale-eigenvector b s)` refuses exactly the bands that do not exist (they are counted from 1). -/
theorem C64_scale_range (H : EM) (b : ℤ) (s : ℂ) (h : Heap) : scaleEigenvector H b s h = none ↔ b < 1 ∨ (H.p : ℤ) < b := by
  unfold scaleEigenvector
  split_ifs with hc <;> simp <;> omega

/-- C64: `(scale-eigenvector b s)` multiplies band `b` by `s` and nothing else. -/
theorem C64_scale (H : EM) (b : ℕ) (s : ℂ) (h : Heap) (hb : 1 ≤ b) (hbp : b ≤ H.p) :
    ∃ h', scaleEigenvector H b s h = some h' ∧
      (∀ i < H.n, ∀ j < H.p, rd h' H.data (i * H.p + j) = (if j = b - 1 then s else 1) * rd h H.data (i * H.p + j)) ∧
      (∀ k a, k ≠ H.data.arr → h' k a = h k a) := by
  unfold scaleEigenvector
  rw [if_pos ⟨by omega, by omega⟩]
  have e1 : ((b : ℤ) - 1).toNat = b - 1 := by omega
  rw [e1]
  obtain ⟨h1, h2⟩ := line_of (H.data.add (b - 1)) H.p H.n (by omega) (fun h i => s * rd h (H.data.add (b - 1)) (i * H.p)) h
    (fun u _ t _ hst h' v => by
      rw [rd_wr_ne]
      exact fun e => hst (Nat.eq_of_mul_eq_mul_right (by omega) e).symm)
  refine ⟨_, rfl, fun i hi j hj => ?_, fun k a hk => h2 k a fun i _ e => hk e.1⟩
  by_cases hj' : j = b - 1
  · rw [if_pos hj']
    subst hj'
    have := h1 i hi
    rw [rd_add, rd_add] at this
    rw [Nat.add_comm (i * H.p)]
    exact this
  · rw [if_neg hj', one_mul]
    refine h2 _ _ fun i' hi' e => hj' ?_
    have e' := e.2
    simp only [Ptr.add] at e'
    have e2 : i * H.p + j = i' * H.p + (b - 1) := by omega
    exact (rowMajor_inj hj (by omega) e2).2

/-! ### C64: block algebra -/

/-- C64: `evectmatrix_aXpbY` for distinct arguments. -/
theorem C64_aXpbY_partial (a : ℝ) (X : EM) (b : ℝ) (Y : EM) (h : Heap) (hn : X.n = Y.n) (hp : X.p = Y.p)
    (hd : Y.data.arr ≠ X.data.arr) :
    ∃ h', emaXpbY a X b Y h = some h' ∧ emat h' X = (a : ℂ) • emat h X + (b : ℂ) • mat h Y.data X.p X.n X.p ∧
      Frame h h' X.data X.p X.n X.p := by
  unfold emaXpbY
  rw [if_pos ⟨hn, hp⟩]
  obtain ⟨h', e, h1, h2⟩ := lincomb X.n X.p a b X.data Y.data h (Or.inl hd)
  refine ⟨h', by rw [← e], ?_, h2⟩
  rw [emat, mat_of_line h1]
  ext i j
  rw [Matrix.of_apply, if_neg (fun e => hd (by rw [e]))]
  rfl

/-- C64: for equal arguments ("X and Y may be equal") `evectmatrix_aXpbY` computes `a (1 + b) X`, which is `a X + b X` only if
`a = 1` or `b = 0`. -/
theorem C64_aXpbY_alias (a : ℝ) (X : EM) (b : ℝ) (h : Heap) :
    ∃ h', emaXpbY a X b X h = some h' ∧ emat h' X = ((a * (1 + b) : ℝ) : ℂ) • emat h X := by
  unfold emaXpbY
  rw [if_pos ⟨rfl, rfl⟩]
  obtain ⟨h', e, h1, h2⟩ := lincomb X.n X.p a b X.data X.data h (Or.inr rfl)
  refine ⟨h', by rw [← e], ?_⟩
  rw [emat, mat_of_line h1]
  ext i j
  rw [Matrix.of_apply, if_pos rfl, Matrix.smul_apply, smul_eq_mul]
  simp only [emat, mat_apply]
  push_cast
  ring

theorem C64_aXpbY_alias_refuted : ∃ (X : EM) (h h' : Heap), emaXpbY 2 X 1 X h = some h' ∧
    emat h' X ≠ ((2 : ℝ) : ℂ) • emat h X + ((1 : ℝ) : ℂ) • emat h X := by
  obtain ⟨h', e, h1⟩ := C64_aXpbY_alias 2 ⟨1, 1, 1, ⟨0, 0⟩⟩ 1 (fun _ _ => 1)
  refine ⟨_, _, h', e, fun hc => ?_⟩
  rw [h1] at hc
  have := congrFun (congrFun hc 0) 0
  simp only [Matrix.smul_apply, Matrix.add_apply, emat, mat_apply, rd, smul_eq_mul, mul_one] at this
  norm_num at this

/-- C64: `X := a X + b Y S` with a submatrix of `S` (or its adjoint); the accepted submatrix lies inside `S`. -/
theorem C64_aXpbYS (a : ℝ) (X : EM) (b : ℝ) (Y : EM) (S : SQ) (soff : ℕ) (sd : Bool) (h : Heap) (hS : S.p ≠ 0) (hn : X.n = Y.n)
    (hp : X.p = Y.p) (hle : X.p ≤ S.p) (hoff : (soff : ℤ) + ((Y.p : ℤ) - 1) * S.p + Y.p ≤ S.p * S.p)
    (d1 : Y.data.arr ≠ X.data.arr) (d2 : S.data.arr ≠ X.data.arr) :
    (∃ h', emaXpbYSsub a X b Y S soff sd h = some h' ∧
      emat h' X = (a : ℂ) • emat h X + (b : ℂ) • (mat h Y.data X.p X.n X.p *
        (if sd then (mat h (S.data.add soff) S.p X.p X.p).conjTranspose else mat h (S.data.add soff) S.p X.p X.p)) ∧
      Frame h h' X.data X.p X.n X.p) ∧
    ∀ i < X.p, ∀ j < X.p, soff + i * S.p + j < S.p * S.p := by
  constructor
  · unfold emaXpbYSsub
    rw [if_neg hS, if_pos ⟨hn, hp, hle⟩, if_pos hoff, ← hp]
    by_cases h0 : X.p = 0
    · refine ⟨h, by rw [gemm, if_pos (by simp [h0])], ?_, fun _ _ _ => rfl⟩
      ext i j
      have := j.2
      omega
    · obtain ⟨h', e, h1, h2⟩ := C23_gemm_partial .N (dag sd) X.n X.p X.p b Y.data X.p (S.data.add soff) S.p a X.data X.p h
        (Or.inl h0) le_rfl d1 d2
      refine ⟨h', e, ?_, h2⟩
      rw [emat, h1, add_comm]
      cases sd <;> rfl
  · intro i hi j hj
    have h1 : (i : ℤ) * S.p ≤ ((Y.p : ℤ) - 1) * S.p := by
      apply mul_le_mul_of_nonneg_right _ (by positivity)
      omega
    have h2 : ((soff + i * S.p + j : ℕ) : ℤ) < ((S.p * S.p : ℕ) : ℤ) := by
      push_cast
      omega
    exact_mod_cast h2

/-- C64: `X := Y S`, `X := Y S^H`. -/
theorem C64_XeYS (X Y : EM) (S : SQ) (sherm : Bool) (h : Heap) (hS : S.p = Y.p) (hn : X.n = Y.n) (hp : X.p = Y.p) (h0 : Y.p ≠ 0)
    (d1 : Y.data.arr ≠ X.data.arr) (d2 : S.data.arr ≠ X.data.arr) :
    ∃ h', emXeYS X Y S sherm h = some h' ∧
      emat h' X = mat h Y.data X.p X.n X.p *
        (if sherm then (mat h S.data X.p X.p X.p).conjTranspose else mat h S.data X.p X.p X.p) ∧ Frame h h' X.data X.p X.n X.p := by
  unfold emXeYS
  rw [if_pos (Or.inr hS)]
  obtain ⟨⟨h', e, h1, h2⟩, -⟩ := C64_aXpbYS 0 X 1 Y S 0 sherm h (by omega) hn hp (by omega) (by
    rw [hS]; push_cast; nlinarith) d1 d2
  refine ⟨h', e, ?_, h2⟩
  rw [h1, hS, ← hp]
  simp only [Complex.ofReal_zero, zero_smul, zero_add, Complex.ofReal_one, one_smul]
  rfl

/-- C64: `X += a Y S`, `X += a Y S^H`. -/
theorem C64_XpaYS (X : EM) (a : ℝ) (Y : EM) (S : SQ) (sd : Bool) (h : Heap) (hS : S.p = Y.p) (hn : X.n = Y.n) (hp : X.p = Y.p)
    (h0 : Y.p ≠ 0) (d1 : Y.data.arr ≠ X.data.arr) (d2 : S.data.arr ≠ X.data.arr) :
    ∃ h', emXpaYS X a Y S sd h = some h' ∧
      emat h' X = emat h X + (a : ℂ) • (mat h Y.data X.p X.n X.p *
        (if sd then (mat h S.data X.p X.p X.p).conjTranspose else mat h S.data X.p X.p X.p)) ∧ Frame h h' X.data X.p X.n X.p := by
  unfold emXpaYS
  rw [if_pos (Or.inr hS)]
  obtain ⟨⟨h', e, h1, h2⟩, -⟩ := C64_aXpbYS 1 X a Y S 0 sd h (by omega) hn hp (by omega) (by
    rw [hS]; push_cast; nlinarith) d1 d2
  refine ⟨h', e, ?_, h2⟩
  rw [h1, hS, ← hp]
  simp only [Complex.ofReal_one, one_smul]
  rfl

/-- C64: without a matrix (`S.p = 0`), `X := Y`. -/
theorem C64_XeYS_identity (X Y : EM) (S : SQ) (sherm : Bool) (h : Heap) (hS : S.p = 0) (hn : X.n = Y.n) (hp : X.p = Y.p)
    (d1 : Y.data.arr ≠ X.data.arr) :
    ∃ h', emXeYS X Y S sherm h = some h' ∧ emat h' X = mat h Y.data X.p X.n X.p ∧ Frame h h' X.data X.p X.n X.p := by
  unfold emXeYS emaXpbYSsub
  rw [if_pos (Or.inl hS), if_pos hS]
  obtain ⟨h', e, h1, h2⟩ := C64_aXpbY_partial 0 X 1 Y h hn hp d1
  exact ⟨h', e, by rw [h1]; simp, h2⟩

theorem herk_upper (n k : ℕ) (A : Ptr) (fdA : ℕ) (C : Ptr) (fdC : ℕ) (h : Heap) (hC : n ≤ fdC) (dA : A.arr ≠ C.arr) :
    ∃ h', herk true .C n k 1 A fdA 0 C fdC h = some h' ∧
      (∀ i j : Fin n, i ≤ j → mat h' C fdC n n i j = ((mat h A fdA k n).conjTranspose * mat h A fdA k n) i j) ∧
      (∀ kk aa, kk ≠ C.arr → h' kk aa = h kk aa) := by
  by_cases hk : k = 0
  · subst hk
    unfold herk
    by_cases hn : n = 0
    · subst hn
      rw [if_pos rfl]
      exact ⟨h, rfl, fun i => i.elim0, fun _ _ _ => rfl⟩
    · rw [if_neg hn, if_pos rfl]
      obtain ⟨b1, b2⟩ := block_const C fdC n n hC (fun _ _ => 0) h
      refine ⟨_, rfl, fun i j _ => ?_, fun kk aa hne => b2.arr hne aa⟩
      rw [b1]
      simp [Matrix.mul_apply]
  · obtain ⟨h', e, h1, h2⟩ := C23_herk_partial true .C n k 1 A fdA 0 C fdC h hk hC dA
    refine ⟨h', e, fun i j hij => ?_, fun kk aa hne => h2 kk aa fun _ _ _ e' => hne e'.1⟩
    rw [h1 i j (by simpa using hij)]
    simp [herkOp]

/-- C64: `U := X^H X`, using `S` as scratch; nothing else changes. -/
theorem C64_XtX (U : SQ) (X : EM) (S : SQ) (h : Heap) (hp : X.p = U.p) (hS : U.p ≤ S.allocP) (d1 : X.data.arr ≠ S.data.arr)
    (d2 : S.data.arr ≠ U.data.arr) :
    ∃ h', emXtX U X S h = some h' ∧ smat h' U = (mat h X.data X.p X.n U.p).conjTranspose * mat h X.data X.p X.n U.p ∧
      (∀ k a, k ≠ S.data.arr → ¬ InBlock U.data U.p U.p U.p k a → h' k a = h k a) := by
  unfold emXtX
  rw [if_pos ⟨hp, hS⟩]
  simp only
  obtain ⟨z1, -⟩ := zero_spec S.data (U.p * U.p) h
  generalize zero S.data (U.p * U.p) h = h0 at z1
  obtain ⟨h1, e1, k1, k2⟩ := herk_upper X.p X.n X.data X.p S.data U.p h0 (by omega) d1
  rw [e1]
  simp only
  obtain ⟨m1, m2, m3⟩ := mirrorUpper_spec S.data U.p h1
  obtain ⟨c1, c2⟩ := copy_spec (U.p * U.p) S.data U.data (mirrorUpper S.data U.p h1) (Or.inl d2)
  refine ⟨_, rfl, ?_, fun k a hk hb => ?_⟩
  · rw [smat, mat_of_line c1]
    have hX : mat h0 X.data X.p X.n U.p = mat h X.data X.p X.n U.p := mat_congr fun a => z1 _ _ d1
    rw [hp] at k1
    rw [← hX]
    ext i j
    change mat (mirrorUpper S.data U.p h1) S.data U.p U.p U.p i j = _
    rw [hp]
    rcases le_or_gt i j with hij | hij
    · rw [m1 i j hij, k1 i j hij]
    · rw [m2 j i hij, k1 j i hij.le]
      simp only [Matrix.mul_apply, map_sum, Matrix.conjTranspose_apply, map_mul, RCLike.star_def, Complex.conj_conj]
      exact Finset.sum_congr rfl fun l _ => mul_comm _ _
  · rw [frame_full c2 k a hb, m3.arr hk, k2 k a hk, z1 k a hk]

/-- C64: `evectmatrix_XtY_slice2`: columns `iu, ..., iu+q-1` of `U` become `X_slice^H Y_slice`; the other columns of `U` and
everything but the scratch matrices keep their values. -/
theorem C64_XtY_slice2 (U : SQ) (X Y : EM) (ix iy p q iu : ℕ) (S1 S2 : SQ) (h : Heap) (hx : ix + p ≤ X.p) (hy : iy + q ≤ Y.p)
    (hn : X.n = Y.n) (hU : p = U.p) (hq : q ≤ p) (hs1 : p ≤ S1.allocP) (hs2 : p ≤ S2.allocP) (hiu : iu + q ≤ p)
    (d1 : X.data.arr ≠ S1.data.arr) (d2 : Y.data.arr ≠ S1.data.arr) (d3 : S1.data.arr ≠ S2.data.arr)
    (d4 : S2.data.arr ≠ U.data.arr ∨ (S2.data = U.data ∧ q = p ∧ iu = 0)) :
    ∃ h', emXtYslice2 U X Y ix iy p q iu S1 S2 h = some h' ∧
      mat h' (U.data.add iu) p p q = (mat h (X.data.add ix) X.p X.n p).conjTranspose * mat h (Y.data.add iy) Y.p X.n q ∧
      (∀ k a, k ≠ S1.data.arr → (k ≠ S2.data.arr ∨ S2.data = U.data) → ¬ InBlock (U.data.add iu) p p q k a → h' k a = h k a) := by
  unfold emXtYslice2
  rw [if_pos ⟨hx, hy, hn, hU, hq, hs1, hs2⟩]
  simp only
  obtain ⟨z1, -⟩ := zero_spec S1.data (U.p * U.p) h
  generalize zero S1.data (U.p * U.p) h = h0 at z1
  obtain ⟨h1, e1, g1, g2⟩ := C23_gemm_partial .C .N p q X.n 1 (X.data.add ix) X.p (Y.data.add iy) Y.p 0 S1.data q h0 (Or.inr rfl) le_rfl
    d1 d2
  rw [e1]
  simp only
  obtain ⟨c1, c2⟩ := copy_spec (p * q) S1.data S2.data h1 (Or.inl d3)
  have hc1 : mat (copy (p * q) S1.data 1 S2.data 1 h1) S2.data q p q =
      (mat h (X.data.add ix) X.p X.n p).conjTranspose * mat h (Y.data.add iy) Y.p X.n q := by
    rw [mat_of_line c1]
    change mat h1 S1.data q p q = _
    rw [g1]
    have a1 : opMat .C h0 (X.data.add ix) X.p p X.n = (mat h (X.data.add ix) X.p X.n p).conjTranspose := by
      change (mat h0 (X.data.add ix) X.p X.n p).conjTranspose = _
      rw [mat_congr (P := X.data.add ix) fun a => z1 _ _ d1]
    have a2 : opMat .N h0 (Y.data.add iy) Y.p X.n q = mat h (Y.data.add iy) Y.p X.n q := mat_congr fun a => z1 _ _ d2
    rw [a1, a2]
    simp
  generalize copy (p * q) S1.data 1 S2.data 1 h1 = h2 at c2 hc1
  refine ⟨_, rfl, ?_⟩
  rcases d4 with hne | ⟨heq, rfl, rfl⟩
  · have hw : ∀ (h : Heap) (t : ℕ × ℕ) (v : ℂ), wr h U.data (t.1 * p + t.2 + iu) v = wr h (U.data.add iu) (t.1 * p + t.2) v := by
      intro h t v
      rw [wr_add, Nat.add_comm iu]
    simp only [hw]
    obtain ⟨b1, b2⟩ := block_of (U.data.add iu) p p q hq (fun h t => rd h S2.data (t.1 * q + t.2)) h2 (fun s _ t _ _ h' v => by
      exact rd_wr_other (fun e => hne e.1))
    refine ⟨by rw [b1]; exact hc1, fun k a k1 k2 hb => ?_⟩
    rw [b2 k a hb, c2 k a, g2.arr k1, z1 k a k1]
    have k2 : k ≠ S2.data.arr := k2.resolve_right fun e => hne (by rw [e])
    exact fun i _ e => k2 e.1
  · have hid : ∀ (l : List (ℕ × ℕ)) (g : Heap), l.foldl (fun h t =>
        wr h U.data (t.1 * q + t.2 + 0) (rd h S2.data (t.1 * q + t.2))) g = g := by
      intro l
      induction l with
      | nil => intro g; rfl
      | cons t l ih => intro g; rw [List.foldl_cons, ih, heq, Nat.add_zero, wr_rd_self]
    rw [hid]
    refine ⟨?_, fun k a k1 _ hb => ?_⟩
    · rw [← hc1, heq]; rfl
    · rw [frame_full c2 k a (by rw [heq]; exact hb), g2.arr k1, z1 k a k1]

/-- C64: the range of destination columns is not checked: an accepted call may write outside `U`. -/
theorem C64_slice2_bounds_refuted : ∃ (U : SQ) (X Y : EM) (iu : ℕ) (S1 S2 : SQ) (h h' : Heap),
    emXtYslice2 U X Y 0 0 1 1 iu S1 S2 h = some h' ∧ ∃ a, U.p * U.p ≤ a ∧ rd h' U.data a ≠ rd h U.data a := by
  let h : Heap := fun k _ => if k = 3 then 2 else 1
  obtain ⟨h', e, hm, -⟩ := C64_XtY_slice2 ⟨1, 1, ⟨3, 1⟩⟩ ⟨1, 1, 1, ⟨0, 0⟩⟩ ⟨1, 1, 1, ⟨1, 0⟩⟩ 0 0 1 1 0 ⟨1, 1, ⟨2, 0⟩⟩ ⟨1, 1, ⟨4, 0⟩⟩ h
    le_rfl le_rfl rfl rfl le_rfl le_rfl le_rfl le_rfl (by decide) (by decide) (by decide) (Or.inl (by decide))
  refine ⟨⟨1, 1, ⟨3, 0⟩⟩, ⟨1, 1, 1, ⟨0, 0⟩⟩, ⟨1, 1, 1, ⟨1, 0⟩⟩, 1, ⟨1, 1, ⟨2, 0⟩⟩, ⟨1, 1, ⟨4, 0⟩⟩, h, h', ?_, 1, by decide, ?_⟩
  · rw [← e]; rfl
  · have := congrFun (congrFun hm 0) 0
    simp [mat, Ptr.add, Matrix.mul_apply, h] at this
    simp only [rd]
    norm_num [this, h]

/-- C64: `U := X^H Y`. -/
theorem C64_XtY (U : SQ) (X Y : EM) (S : SQ) (h : Heap) (hp : X.p = Y.p) (hn : X.n = Y.n) (hU : X.p = U.p) (hs1 : X.p ≤ S.allocP)
    (hs2 : X.p ≤ U.allocP) (d1 : X.data.arr ≠ S.data.arr) (d2 : Y.data.arr ≠ S.data.arr) (d3 : S.data.arr ≠ U.data.arr) :
    ∃ h', emXtY U X Y S h = some h' ∧ mat h' U.data X.p X.p X.p = (emat h X).conjTranspose * mat h Y.data Y.p X.n X.p ∧
      (∀ k a, k ≠ S.data.arr → ¬ InBlock U.data X.p X.p X.p k a → h' k a = h k a) := by
  unfold emXtY emXtYslice
  rw [if_pos hp]
  obtain ⟨h', e, h1, h2⟩ := C64_XtY_slice2 U X Y 0 0 X.p X.p 0 S U h (by omega) (by omega) hn hU le_rfl hs1 hs2 (by omega) d1 d2 d3
    (Or.inr ⟨rfl, rfl, rfl⟩)
  exact ⟨h', e, h1, fun k a hk hb => h2 k a hk (Or.inr rfl) hb⟩

/-- C64: `evectmatrix_XtY_slice`: the product of `p` columns of `X` from `ix` on and `p` columns of `Y` from `iy` on. -/
theorem C64_XtY_slice (U : SQ) (X Y : EM) (ix iy p : ℕ) (S : SQ) (h : Heap) (hx : ix + p ≤ X.p) (hy : iy + p ≤ Y.p) (hn : X.n = Y.n)
    (hU : p = U.p) (hs1 : p ≤ S.allocP) (hs2 : p ≤ U.allocP) (d1 : X.data.arr ≠ S.data.arr) (d2 : Y.data.arr ≠ S.data.arr)
    (d3 : S.data.arr ≠ U.data.arr) :
    ∃ h', emXtYslice U X Y ix iy p S h = some h' ∧
      mat h' U.data p p p = (mat h (X.data.add ix) X.p X.n p).conjTranspose * mat h (Y.data.add iy) Y.p X.n p ∧
      (∀ k a, k ≠ S.data.arr → ¬ InBlock U.data p p p k a → h' k a = h k a) := by
  unfold emXtYslice
  obtain ⟨h', e, h1, h2⟩ := C64_XtY_slice2 U X Y ix iy p p 0 S U h hx hy hn hU le_rfl hs1 hs2 (by omega) d1 d2 d3 (Or.inr ⟨rfl, rfl, rfl⟩)
  exact ⟨h', e, h1, fun k a hk hb => h2 k a hk (Or.inr rfl) hb⟩

/-- C64: a matrix product whose result would be stored in the array of one of its factors has no defined result. -/
theorem C64_gemm_alias (ta tb : Trans) (m n k : ℕ) (a : ℝ) (A : Ptr) (fdA : ℕ) (B : Ptr) (fdB : ℕ) (b : ℝ) (C : Ptr) (fdC : ℕ) (h : Heap)
    (hm : 0 < m) (hn : 0 < n) (hk : 0 < k) : gemm ta tb m n k a A fdA B fdB b C fdC h = none ↔ A.arr = C.arr ∨ B.arr = C.arr := by
  unfold gemm fgemm
  rw [if_neg (by positivity), if_neg (by omega)]
  split_ifs with hc hd
  · simp only [true_iff]; tauto
  · simp only [reduceCtorEq, false_iff]; tauto
  · simp only [true_iff]
    by_contra hn'
    push Not at hn'
    exact hc ⟨fun e => hn'.1 (by rw [e]), fun e => hn'.2 (by rw [e])⟩

/-- C64: `evectmatrixXtY_sub`: `X^H Y` stored as a submatrix of `U`, inside `U`. -/
theorem C64_XtY_sub (U : SQ) (uoff : ℕ) (X Y : EM) (S : SQ) (h : Heap) (hp : X.p = Y.p) (hn : X.n = Y.n) (hU : Y.p ≤ U.p)
    (hoff : (uoff : ℤ) + ((Y.p : ℤ) - 1) * U.p + Y.p ≤ U.p * U.p) (hS : Y.p ≤ S.allocP)
    (d1 : X.data.arr ≠ S.data.arr) (d2 : Y.data.arr ≠ S.data.arr) (d3 : S.data.arr ≠ U.data.arr) :
    (∃ h', emXtYsub U uoff X Y S h = some h' ∧
      mat h' (U.data.add uoff) U.p Y.p Y.p = (mat h X.data Y.p Y.n Y.p).conjTranspose * emat h Y ∧
      (∀ k a, k ≠ S.data.arr → ¬ InBlock (U.data.add uoff) U.p Y.p Y.p k a → h' k a = h k a)) ∧
    ∀ i < Y.p, ∀ j < Y.p, uoff + i * U.p + j < U.p * U.p := by
  constructor
  · unfold emXtYsub
    rw [if_pos ⟨hp, hn, hU, hoff, hS⟩, hp, hn]
    simp only
    obtain ⟨z1, -⟩ := zero_spec S.data (Y.p * Y.p) h
    generalize zero S.data (Y.p * Y.p) h = h0 at z1
    obtain ⟨h1, e1, g1, g2⟩ := C23_gemm_partial .C .N Y.p Y.p Y.n 1 X.data Y.p Y.data Y.p 0 S.data Y.p h0 (Or.inr rfl) le_rfl d1 d2
    rw [e1]
    simp only
    have hadd : ∀ (P : Ptr) (a b : ℕ), P.add (a + b) = (P.add a).add b := fun P a b => by simp [Ptr.add, Nat.add_assoc]
    simp only [hadd]
    obtain ⟨r1, r2⟩ := copy_rows Y.p Y.p S.data Y.p (U.data.add uoff) U.p hU d3 h1
    refine ⟨_, rfl, ?_, fun k a hk hb => ?_⟩
    · rw [r1, g1]
      have a1 : opMat .C h0 X.data Y.p Y.p Y.n = (mat h X.data Y.p Y.n Y.p).conjTranspose := by
        change (mat h0 X.data Y.p Y.n Y.p).conjTranspose = _
        rw [mat_congr fun a => z1 _ _ d1]
      have a2 : opMat .N h0 Y.data Y.p Y.n Y.p = emat h Y := mat_congr fun a => z1 _ _ d2
      rw [a1, a2]
      simp
    · rw [r2 k a hb, g2.arr hk, z1 k a hk]
  · intro i hi j hj
    have h1 : (i : ℤ) * U.p ≤ ((Y.p : ℤ) - 1) * U.p := by
      apply mul_le_mul_of_nonneg_right _ (by positivity)
      omega
    have h2 : ((uoff + i * U.p + j : ℕ) : ℤ) < ((U.p * U.p : ℕ) : ℤ) := by
      push_cast
      omega
    exact_mod_cast h2

/-- C64: `evectmatrix_traceXtY` is the trace of `X^H Y`. -/
theorem C64_traceXtY (X Y : EM) (h : Heap) (hp : X.p = Y.p) (hn : X.n = Y.n) :
    emTraceXtY X Y h = some ((emat h X).conjTranspose * mat h Y.data X.p X.n X.p).trace := by
  unfold emTraceXtY
  rw [if_pos ⟨hp, hn⟩, dotc_full]
  rfl

/-- C64: `matrix_XtY_diag` is the diagonal of `X^H Y`. -/
theorem C64_XtY_diag (X Y : Ptr) (n p : ℕ) (h : Heap) (j : Fin p) :
    xtyDiag X Y n p h j = ((mat h X p n p).conjTranspose * mat h Y p n p) j j := by
  unfold xtyDiag
  have hstep : ∀ (l : List ℕ) (s : ℂ), l.foldl (fun (s : ℂ) i =>
      let b := rd h X (i * p + j)
      let c := rd h Y (i * p + j)
      (⟨s.re + (b.re * c.re + b.im * c.im), s.im + (b.re * c.im - b.im * c.re)⟩ : ℂ)) s =
      l.foldl (fun s i => s + (starRingEnd ℂ) (rd h X (i * p + j)) * rd h Y (i * p + j)) s := by
    intro l
    induction l with
    | nil => intro s; rfl
    | cons a l ih =>
      intro s
      rw [List.foldl_cons, List.foldl_cons, ih]
      congr 1
      apply Complex.ext <;> simp [Complex.mul_re, Complex.mul_im] <;> ring
  rw [hstep, foldl_sum_range (fun i => (starRingEnd ℂ) (rd h X (i * p + j)) * rd h Y (i * p + j))]
  simp only [Matrix.mul_apply, Matrix.conjTranspose_apply, mat_apply, RCLike.star_def]

/-- C64: `X += a Y diag(d)` and `X := X diag(d1) + Y diag(d2)`. -/
theorem C64_diag_ops (X : Ptr) (a : ℝ) (Y : Ptr) (d1 d2 : ℕ → ℝ) (n p : ℕ) (h : Heap) (hd : Y.arr ≠ X.arr) :
    mat (xpaYdiag X a Y d1 n p h) X p n p = mat h X p n p + (a : ℂ) • (mat h Y p n p * Matrix.diagonal fun j : Fin p => (d1 j : ℂ)) ∧
    Frame h (xpaYdiag X a Y d1 n p h) X p n p ∧
    mat (xdiagPydiag X d1 Y d2 n p h) X p n p =
      mat h X p n p * (Matrix.diagonal fun j : Fin p => (d1 j : ℂ)) + mat h Y p n p * (Matrix.diagonal fun j : Fin p => (d2 j : ℂ)) ∧
    Frame h (xdiagPydiag X d1 Y d2 n p h) X p n p := by
  have hread : ∀ s ∈ loop2 n p, ∀ t ∈ loop2 n p, s ≠ t → ∀ (h' : Heap) v,
      rd (wr h' X (s.1 * p + s.2) v) X (t.1 * p + t.2) = rd h' X (t.1 * p + t.2) := by
    intro s hs t ht hst h' v
    refine rd_wr_ne fun e => hst ?_
    have := rowMajor_inj (mem_loop2.1 ht).2 (mem_loop2.1 hs).2 e
    exact Prod.ext this.1.symm this.2.symm
  have hreadY : ∀ (s t : ℕ × ℕ) (h' : Heap) v, rd (wr h' X (s.1 * p + s.2) v) Y (t.1 * p + t.2) = rd h' Y (t.1 * p + t.2) :=
    fun s t h' v => rd_wr_other fun e => hd e.1
  obtain ⟨b1, b2⟩ := block_of X p n p le_rfl (fun h t =>
    (⟨(rd h X (t.1 * p + t.2)).re + a * d1 t.2 * (rd h Y (t.1 * p + t.2)).re,
      (rd h X (t.1 * p + t.2)).im + a * d1 t.2 * (rd h Y (t.1 * p + t.2)).im⟩ : ℂ)) h (fun s hs t ht hst h' v => by
      rw [hread s hs t ht hst, hreadY])
  obtain ⟨c1, c2⟩ := block_of X p n p le_rfl (fun h t =>
    (⟨d1 t.2 * (rd h X (t.1 * p + t.2)).re + d2 t.2 * (rd h Y (t.1 * p + t.2)).re,
      d1 t.2 * (rd h X (t.1 * p + t.2)).im + d2 t.2 * (rd h Y (t.1 * p + t.2)).im⟩ : ℂ)) h (fun s hs t ht hst h' v => by
      rw [hread s hs t ht hst, hreadY])
  refine ⟨b1.trans ?_, b2, c1.trans ?_, c2⟩
  · ext i j
    simp only [Matrix.of_apply, Matrix.add_apply, Matrix.smul_apply, Matrix.mul_diagonal, mat_apply, smul_eq_mul]
    apply Complex.ext <;> simp <;> ring
  · ext i j
    simp only [Matrix.of_apply, Matrix.add_apply, Matrix.mul_diagonal, mat_apply]
    apply Complex.ext <;> simp <;> ring

/-- C22: `sqmatrix-ref` and `sqmatrix-set`. -/
theorem C22_ref_set (m : SQ) (i j i' j' : ℤ) (c : ℂ) (h : Heap) (hi : 0 ≤ i ∧ i < m.p) (hj : 0 ≤ j ∧ j < m.p) (hi' : 0 ≤ i' ∧ i' < m.p)
    (hj' : 0 ≤ j' ∧ j' < m.p) :
    ∃ h', sqSet m i j c h = some h' ∧ sqRef m i' j' h' = (if i' = i ∧ j' = j then some c else sqRef m i' j' h) := by
  unfold sqSet sqRef
  rw [if_pos ⟨hi.1, hj.1, hi.2, hj.2⟩]
  refine ⟨_, rfl, ?_⟩
  have hc : i' ≥ 0 ∧ j' ≥ 0 ∧ i' < m.p ∧ j' < m.p := ⟨hi'.1, hj'.1, hi'.2, hj'.2⟩
  simp only [if_pos hc]
  obtain ⟨a, rfl⟩ := Int.eq_ofNat_of_zero_le hi.1
  obtain ⟨b, rfl⟩ := Int.eq_ofNat_of_zero_le hj.1
  obtain ⟨a', rfl⟩ := Int.eq_ofNat_of_zero_le hi'.1
  obtain ⟨b', rfl⟩ := Int.eq_ofNat_of_zero_le hj'.1
  have e : ((a : ℤ) * m.p + b).toNat = a * m.p + b := by norm_cast
  have e' : ((a' : ℤ) * m.p + b').toNat = a' * m.p + b' := by norm_cast
  rw [e, e']
  by_cases hh : (a' : ℤ) = a ∧ (b' : ℤ) = b
  · rw [if_pos hh]
    have h1 : a' = a := by omega
    have h2 : b' = b := by omega
    rw [h1, h2, rd_wr_same]
  · rw [if_neg hh, rd_wr_ne]
    intro e
    have := rowMajor_inj (by omega) (by omega) e
    exact hh ⟨by omega, by omega⟩

/-- C22: `sqmatrix-diagm` builds the diagonal matrix. -/
theorem C22_diagm (d : List ℂ) (fresh : Ptr) (h : Heap) :
    smat (diagm d fresh h).2 (diagm d fresh h).1 = Matrix.diagonal fun i : Fin d.length => d[i] := by
  change mat ((List.range d.length).foldl (fun h i => wr h fresh (i * d.length + i) (d[i]?.getD 0))
    ((List.range (d.length * d.length)).foldl (fun h i => wr h fresh i 0) h)) fresh d.length d.length d.length = _
  obtain ⟨z1, -⟩ := fold_wr_const fresh (fun i : ℕ => i) (fun _ => 0) (List.range (d.length * d.length)) h
    ((pairwise_range _).imp fun hab => by omega)
  generalize (List.range (d.length * d.length)).foldl (fun h i => wr h fresh i 0) h = h1 at z1
  obtain ⟨c1, c2⟩ := fold_wr_const fresh (fun i : ℕ => i * d.length + i) (fun i => d[i]?.getD 0) (List.range d.length) h1
    ((pairwise_range _).imp_of_mem fun {a b} ha hb hab e => by
      have := rowMajor_inj (List.mem_range.1 ha) (List.mem_range.1 hb) e
      omega)
  ext i j
  rw [mat_apply]
  by_cases hij : i = j
  · subst hij
    rw [c1 i (List.mem_range.2 i.2), Matrix.diagonal_apply_eq]
    simp
  · rw [Matrix.diagonal_apply_ne _ hij]
    have hb : (i : ℕ) * d.length + j < d.length * d.length := rowMajor_lt i.2 j.2
    have := z1 _ (List.mem_range.2 hb)
    refine Eq.trans (c2 _ _ fun t ht e => hij ?_) this
    have e2 : (i : ℕ) * d.length + j = t * d.length + t := by have := e.2; omega
    have := rowMajor_inj j.2 (List.mem_range.1 ht) e2
    exact Fin.ext (by omega)

example : ∃ h', emXtX ⟨2, 2, ⟨0, 0⟩⟩ ⟨5, 2, 3, ⟨1, 0⟩⟩ ⟨3, 3, ⟨2, 0⟩⟩ (fun _ a => a) = some h' :=
  let ⟨h', e, _⟩ := C64_XtX ⟨2, 2, ⟨0, 0⟩⟩ ⟨5, 2, 3, ⟨1, 0⟩⟩ ⟨3, 3, ⟨2, 0⟩⟩ (fun _ a => a) rfl (by decide) (by decide) (by decide)
  ⟨h', e⟩

example : (emResize ⟨3, 2, 4, ⟨0, 0⟩⟩ 4 true (fun _ a => a)).isSome = true := by
  rw [Option.isSome_iff_ne_none, Ne, (C18_resize ⟨3, 2, 4, ⟨0, 0⟩⟩ 4 true (fun _ a => a) (by decide)).1]
  decide

example : ∃ m h', getEigenvectors ⟨3, 5, 5, ⟨0, 0⟩⟩ (2 : ℕ) (3 : ℕ) ⟨1, 0⟩ (fun _ a => a) = some (m, h') :=
  let ⟨m, h', e, _⟩ := C18_get ⟨3, 5, 5, ⟨0, 0⟩⟩ 2 3 ⟨1, 0⟩ (fun _ a => a) (by decide) (by decide) (by decide)
  ⟨m, h', e⟩

end Mpb.Mat

import Verif.Mat.DotSpec
import Verif.Mat.Block

/-!
# C114: overlap matrices and closed paths
-/

namespace Mpb.Mat
open Spec

theorem sq2scm_spec (m : SQ) (res : Ptr) (h : Heap) (hd : m.data.arr ≠ res.arr) :
    ∃ h', sq2scm m res h = some (⟨m.p, m.p, res⟩, h') ∧ smat h' ⟨m.p, m.p, res⟩ = smat h m ∧ ∀ k a, k ≠ res.arr → h' k a = h k a := by
  obtain ⟨h', e, h1, h2⟩ := C22_copy ⟨m.p, m.p, res⟩ m h rfl (Or.inl hd)
  refine ⟨h', by rw [sq2scm, e]; rfl, h1, fun k a hk => h2 k a fun hb => hk hb.1⟩

/-- **C114**: `sqmatrix-mult` is the matrix product, in a new matrix; matrices of different sizes are refused. -/
theorem C114_mult (A B : SQ) (tmp res : Ptr) (h : Heap) (ht : A.data.arr ≠ tmp.arr ∧ B.data.arr ≠ tmp.arr) (hr : tmp.arr ≠ res.arr) :
    (∀ hp : A.p = B.p, ∃ h', sqMult A B tmp res h = some (⟨A.p, A.p, res⟩, h') ∧
      smat h' ⟨A.p, A.p, res⟩ = smat h A * mat h B.data A.p A.p A.p ∧ ∀ k a, k ≠ res.arr → k ≠ tmp.arr → h' k a = h k a) ∧
    (A.p ≠ B.p → sqMult A B tmp res h = none) := by
  refine ⟨fun hp => ?_, fun hp => by rw [sqMult, if_neg hp]⟩
  obtain ⟨h1, e1, m1, f1⟩ := C22_AeBC ⟨A.p, A.p, tmp⟩ A B false false h rfl hp ht.1 ht.2
  obtain ⟨h2, e2, m2, f2⟩ := sq2scm_spec ⟨A.p, A.p, tmp⟩ res h1 hr
  refine ⟨h2, by rw [sqMult, if_pos hp, e1]; exact e2, ?_, fun k a hk hk' => ?_⟩
  · rw [m2, m1]; rfl
  · rw [f2 k a hk, f1 k a fun hb => hk' hb.1]

/-- **C114**: `sqmatrix-eigvals` returns the eigenvalues of the matrix with their multiplicities, and leaves the matrix as it was. -/
theorem C114_eigvals (geev : Ptr → ℕ → Heap → Option (Heap × List ℂ)) (hg : GeevContract geev) (A : SQ) (tmp : Ptr) (h h' : Heap) (l : List ℂ)
    (ht : A.data.arr ≠ tmp.arr) (hr : sqEigvals geev A tmp h = some (h', l)) :
    (l : Multiset ℂ) = (smat h A).charpoly.roots ∧ smat h' A = smat h A ∧ ∀ k a, k ≠ tmp.arr → h' k a = h k a := by
  obtain ⟨h1, e1, m1, f1⟩ := C22_copy ⟨A.p, A.p, tmp⟩ A h rfl (Or.inl ht)
  rw [sqEigvals, e1] at hr
  obtain ⟨g1, g2⟩ := hg _ _ _ _ _ hr
  have hf : ∀ k a, k ≠ tmp.arr → h' k a = h k a := fun k a hk => by rw [g2 k a hk, f1 k a fun hb => hk hb.1]
  refine ⟨?_, ?_, hf⟩
  · rw [g1, Matrix.charpoly_transpose]
    exact congrArg _ (congrArg _ m1)
  · ext i j
    exact hf _ _ ht

theorem emResize_false (W : EM) (q : ℕ) (hq : q ≤ W.allocP) (h : Heap) : emResize W q false h = some ({ W with p := q }, h) := by
  unfold emResize
  rw [if_pos hq]
  rfl

/-- The loop fills the columns that are left. -/
theorem dotLoop_spec {hfb : EM → ℤ → Heap → Heap} (m H : EM) {A : Matrix (Fin m.n) (Fin m.n) ℂ} {fft : ℕ → Prop} (hc : FieldContract m.n A H fft hfb)
    (U S1 S2 : SQ) (first : ℕ) (hU : U.p = m.p) (hS1 : m.p ≤ S1.allocP) (hS2 : m.p ≤ S2.allocP) (hH : first + m.p ≤ H.p)
    (w : Ptr) (bs : ℕ) (hbs : 0 < bs)
    (d1 : m.data.arr ≠ S1.data.arr ∧ m.data.arr ≠ S2.data.arr ∧ m.data.arr ≠ U.data.arr ∧ m.data.arr ≠ w.arr ∧ ¬ fft m.data.arr)
    (d2 : H.data.arr ≠ S1.data.arr ∧ H.data.arr ≠ S2.data.arr ∧ H.data.arr ≠ U.data.arr ∧ H.data.arr ≠ w.arr ∧ ¬ fft H.data.arr)
    (d3 : U.data.arr ≠ S1.data.arr ∧ U.data.arr ≠ S2.data.arr ∧ U.data.arr ≠ w.arr ∧ ¬ fft U.data.arr)
    (d4 : S1.data.arr ≠ S2.data.arr ∧ w.arr ≠ S1.data.arr) (h0 : Heap) :
    ∀ (r c : ℕ) (W : EM) (h : Heap), m.p ≤ c + r → W.data = w → W.n = m.n → W.allocP = bs → (c + bs ≤ m.p → W.p = bs) →
      (∀ k a, k ≠ U.data.arr → k ≠ S1.data.arr → k ≠ S2.data.arr → k ≠ w.arr → ¬ fft k → h k a = h0 k a) →
      (∀ i j : Fin m.p, (j : ℕ) < c → mat h U.data m.p m.p m.p i j =
        ((emat h0 m).conjTranspose * (A * mat h0 (H.data.add first) H.p m.n m.p)) i j) →
      ∃ h', dotLoop hfb U m first ((first : ℤ) + m.p) S1 S2 W ((first : ℤ) + c) h = some h' ∧
        mat h' U.data m.p m.p m.p = (emat h0 m).conjTranspose * (A * mat h0 (H.data.add first) H.p m.n m.p) ∧
        (∀ k a, k ≠ U.data.arr → k ≠ S1.data.arr → k ≠ S2.data.arr → k ≠ w.arr → ¬ fft k → h' k a = h0 k a) := by
  intro r
  induction r using Nat.strong_induction_on with
  | _ r ih =>
  intro c W h hr hWd hWn hWa hWp hfr hcols
  rw [dotLoop]
  by_cases hi : (first : ℤ) + c < (first : ℤ) + m.p
  · have hcp : c < m.p := by omega
    rw [dif_pos hi, dif_neg (by omega)]
    obtain ⟨W', e, hd', hn', ha', hp'⟩ : ∃ W' : EM, (if (first : ℤ) + c + W.allocP > (first : ℤ) + m.p then
        emResize W ((first : ℤ) + m.p - (first + c)).toNat false h else some (W, h)) = some (W', h) ∧ W'.data = w ∧ W'.n = m.n ∧ W'.allocP = bs ∧
        W'.p = min bs (m.p - c) := by
      by_cases hb : (first : ℤ) + c + W.allocP > (first : ℤ) + m.p
      · rw [if_pos hb, emResize_false _ _ (by omega)]
        exact ⟨_, rfl, hWd, hWn, hWa, by dsimp only; omega⟩
      · rw [if_neg hb]
        exact ⟨W, rfl, hWd, hWn, hWa, by rw [hWp (by omega)]; omega⟩
    rw [e]
    dsimp only
    have hz : ((first : ℤ) + c - first).toNat = c := by omega
    have hcast : (first : ℤ) + c = ((first + c : ℕ) : ℤ) := by push_cast; rfl
    rw [hz]
    obtain ⟨k1, k2⟩ := hc W' (first + c) h (by omega)
    rw [← hcast] at k1 k2
    set hh := hfb W' ((first : ℤ) + c) h with hhdef
    obtain ⟨h2, e2, m2, f2⟩ := C64_XtY_slice2 U m W' 0 0 m.p W'.p c S1 S2 hh (by omega) (by omega) hn'.symm hU.symm (by omega) hS1 hS2 (by omega)
      d1.1 (by rw [hd']; exact d4.2) d4.1 (Or.inl d3.2.1.symm)
    rw [e2]
    dsimp only
    have hkeep : ∀ k a, k ≠ U.data.arr → k ≠ S1.data.arr → k ≠ S2.data.arr → k ≠ w.arr → ¬ fft k → h2 k a = h0 k a := by
      intro k a q1 q2 q3 q4 q5
      rw [f2 k a q2 (Or.inl q3) (fun hb => q1 hb.1), k2 k a (by rw [hd']; exact q4) q5, hfr k a q1 q2 q3 q4 q5]
    have step := ih (m.p - (c + bs)) (by omega) (c + bs) W' h2 (by omega) hd' hn' ha' (fun hle => by omega) hkeep (fun i j hj => ?_)
    · rw [hWa]
      have e3 : (first : ℤ) + c + bs = (first : ℤ) + ((c + bs : ℕ) : ℤ) := by push_cast; ring
      rw [e3]
      exact step
    · by_cases hjc : (j : ℕ) < c
      · rw [← hcols i j hjc]
        show h2 U.data.arr _ = h U.data.arr _
        rw [f2 _ _ d3.1 (Or.inl d3.2.1), k2 _ _ (by rw [hd']; exact d3.2.2.1) d3.2.2.2]
        rintro ⟨-, i', hi', j', hj', ee⟩
        simp only [Ptr.add] at ee
        have := rowMajor_inj (q := i.1) (r := j.1) (q' := i') (r' := c + j') j.2 (by omega) (by omega : i.1 * m.p + j.1 = i' * m.p + (c + j'))
        omega
      · obtain ⟨j', hj'⟩ : ∃ j' : Fin W'.p, (j : ℕ) = c + j' := ⟨⟨j - c, by omega⟩, by dsimp only; omega⟩
        have hent := congrFun (congrFun m2 i) j'
        have hl : mat h2 (U.data.add c) m.p m.p W'.p i j' = mat h2 U.data m.p m.p m.p i j := by
          show h2 _ _ = h2 _ _
          rw [hj']
          simp only [Ptr.add]
          congr 1
          omega
        rw [← hl, hent, Matrix.mul_apply, Matrix.mul_apply]
        refine Finset.sum_congr rfl fun l _ => ?_
        congr 1
        · rw [Matrix.conjTranspose_apply, Matrix.conjTranspose_apply]
          congr 1
          show hh m.data.arr _ = h0 _ _
          rw [k2 _ _ (by rw [hd']; exact d1.2.2.2.1) d1.2.2.2.2, hfr _ _ d1.2.2.1 d1.1 d1.2.1 d1.2.2.2.1 d1.2.2.2.2]
          rfl
        · have := congrFun (congrFun k1 l) j'
          refine Eq.trans ?_ (this.trans ?_)
          · rfl
          · rw [Matrix.mul_apply, Matrix.mul_apply]
            refine Finset.sum_congr rfl fun t _ => ?_
            congr 1
            show h H.data.arr _ = h0 H.data.arr _
            rw [hj', hfr _ _ d2.2.2.1 d2.1 d2.2.1 d2.2.2.2.1 d2.2.2.2.2]
            simp only [Ptr.add]
            congr 1
            omega
  · rw [dif_neg hi]
    refine ⟨h, rfl, ?_, hfr⟩
    ext i j
    exact hcols i j (by omega)

/-- **C114**: `dot-eigenvectors` returns the overlaps `⟨stored band i, field of current band bStart + j⟩` in a new matrix, whatever the size of the blocks
(`W.allocP`) and the contents of the work arrays, and changes neither the stored nor the current bands. -/
theorem C114_overlap (hfb : Option (EM → ℤ → Heap → Heap)) (H m W : EM) (numBands bStart : ℤ) (u s1 s2 res : Ptr) (h : Heap)
    (A : Matrix (Fin m.n) (Fin m.n) ℂ) (fft : ℕ → Prop)
    (hA : FieldIs m.n A H fft hfb)
    (hs : 1 ≤ bStart) (hb : bStart - 1 + m.p ≤ numBands) (hH : numBands ≤ H.p) (hn : H.n = m.n) (hWn : W.n = m.n) (hWa : 0 < W.allocP)
    (hWp : W.p = W.allocP)
    (dm : m.data.arr ≠ s1.arr ∧ m.data.arr ≠ s2.arr ∧ m.data.arr ≠ u.arr ∧ m.data.arr ≠ W.data.arr ∧ ¬ fft m.data.arr)
    (dH : H.data.arr ≠ s1.arr ∧ H.data.arr ≠ s2.arr ∧ H.data.arr ≠ u.arr ∧ H.data.arr ≠ W.data.arr ∧ ¬ fft H.data.arr)
    (du : u.arr ≠ s1.arr ∧ u.arr ≠ s2.arr ∧ u.arr ≠ W.data.arr ∧ ¬ fft u.arr) (ds : s1.arr ≠ s2.arr ∧ W.data.arr ≠ s1.arr)
    (dr : u.arr ≠ res.arr ∧ m.data.arr ≠ res.arr ∧ H.data.arr ≠ res.arr) :
    ∃ h', dotEigenvectors hfb H m W numBands bStart u s1 s2 res h = some (⟨m.p, m.p, res⟩, h') ∧
      smat h' ⟨m.p, m.p, res⟩ = (emat h m).conjTranspose * (A * mat h (H.data.add (bStart - 1).toNat) H.p m.n m.p) ∧
      (∀ a, h' m.data.arr a = h m.data.arr a) ∧ ∀ a, h' H.data.arr a = h H.data.arr a := by
  obtain ⟨first, rfl⟩ : ∃ first : ℕ, bStart = (first : ℤ) + 1 := ⟨(bStart - 1).toNat, by omega⟩
  have ef : (first : ℤ) + 1 - 1 = first := by ring
  have key : ∃ h1, dotCore hfb ⟨m.p, m.p, u⟩ H m W first ⟨m.p, m.p, s1⟩ ⟨m.p, m.p, s2⟩ h = some h1 ∧
      mat h1 u m.p m.p m.p = (emat h m).conjTranspose * (A * mat h (H.data.add first) H.p m.n m.p) ∧
      (∀ a, h1 m.data.arr a = h m.data.arr a) ∧ ∀ a, h1 H.data.arr a = h H.data.arr a := by
    unfold dotCore
    cases hfb with
    | none =>
      dsimp only [FieldIs] at hA ⊢
      rw [if_pos (by omega), Int.toNat_natCast]
      obtain ⟨h1, e1, m1, f1⟩ := C64_XtY_slice ⟨m.p, m.p, u⟩ m H 0 first m.p ⟨m.p, m.p, s1⟩ h (by omega) (by omega) hn.symm rfl le_rfl le_rfl
        dm.1 dH.1 du.1.symm
      refine ⟨h1, e1, ?_, fun a => f1 _ _ dm.1 fun hb => dm.2.2.1 hb.1, fun a => f1 _ _ dH.1 fun hb => dH.2.2.1 hb.1⟩
      rw [hA, Matrix.one_mul]
      exact m1
    | some f =>
      dsimp only [FieldIs] at hA ⊢
      obtain ⟨h1, e1, m1, f1⟩ := dotLoop_spec m H hA ⟨m.p, m.p, u⟩ ⟨m.p, m.p, s1⟩ ⟨m.p, m.p, s2⟩ first rfl le_rfl le_rfl (by omega) W.data W.allocP hWa
        dm dH du ds h m.p 0 W h (by omega) rfl hWn rfl (fun _ => hWp) (fun _ _ _ _ _ _ _ => rfl) (fun i j hj => absurd hj (Nat.not_lt_zero _))
      rw [Nat.cast_zero, add_zero] at e1
      exact ⟨h1, e1, m1, fun a => f1 _ _ dm.2.2.1 dm.1 dm.2.1 dm.2.2.2.1 dm.2.2.2.2, fun a => f1 _ _ dH.2.2.1 dH.1 dH.2.1 dH.2.2.2.1 dH.2.2.2.2⟩
  obtain ⟨h1, e1, m1, f1, f2⟩ := key
  obtain ⟨h2, e2, m2, f3⟩ := sq2scm_spec ⟨m.p, m.p, u⟩ res h1 dr.1
  refine ⟨h2, ?_, ?_, fun a => by rw [f3 _ _ dr.2.1, f1], fun a => by rw [f3 _ _ dr.2.2, f2]⟩
  · unfold dotEigenvectors
    rw [if_pos hb, ef, e1]
    exact e2
  · rw [m2, ef, Int.toNat_natCast]
    exact m1

/-- A path of overlaps after a change of the modes. -/
theorem pathProduct_gauge {n p : ℕ} (A : ℕ → Matrix (Fin n) (Fin n) ℂ) (E : ℕ → Matrix (Fin n) (Fin p) ℂ) (Q : ℕ → Matrix (Fin p) (Fin p) ℂ)
    (hQ : ∀ k, Q k * (Q k).conjTranspose = 1) (s : ℕ) :
    pathProduct A (fun k => E k * Q k) s = (Q 0).conjTranspose * pathProduct A E s * Q s := by
  induction s with
  | zero =>
    rw [pathProduct, pathProduct, Matrix.mul_one, mul_eq_one_comm.mp (hQ 0)]
  | succ s ih =>
    rw [pathProduct, ih, pathProduct, Matrix.conjTranspose_mul]
    have := hQ s
    calc (Q 0).conjTranspose * pathProduct A E s * Q s * ((Q s).conjTranspose * (E s).conjTranspose * (A s * (E (s + 1) * Q (s + 1))))
        = (Q 0).conjTranspose * pathProduct A E s * (Q s * (Q s).conjTranspose) * ((E s).conjTranspose * (A s * E (s + 1))) * Q (s + 1) := by
          simp only [Matrix.mul_assoc]
      _ = _ := by rw [this, Matrix.mul_one]; simp only [Matrix.mul_assoc]

/-- **C114**: around a closed path of wavevectors the eigenvalues of the product of the overlap matrices do not depend on which orthonormal combinations of
the modes (phases, choice within degenerate bands) the solver returned: the numbers `sqmatrix-eigvals` returns for the two products are the same up to
their order. -/
theorem C114_closed_path {n p : ℕ} (A : ℕ → Matrix (Fin n) (Fin n) ℂ) (E : ℕ → Matrix (Fin n) (Fin p) ℂ) (Q : ℕ → Matrix (Fin p) (Fin p) ℂ)
    (hQ : ∀ k, Q k * (Q k).conjTranspose = 1) (s : ℕ) (hclosed : Q s = Q 0) (geev : Ptr → ℕ → Heap → Option (Heap × List ℂ)) (hg : GeevContract geev)
    (M M' tmp tmp' : Ptr) (h h1 h' h1' : Heap) (l l' : List ℂ) (ht : M.arr ≠ tmp.arr) (ht' : M'.arr ≠ tmp'.arr)
    (hM : mat h M p p p = pathProduct A E s) (hM' : mat h' M' p p p = pathProduct A (fun k => E k * Q k) s)
    (hl : sqEigvals geev ⟨p, p, M⟩ tmp h = some (h1, l)) (hl' : sqEigvals geev ⟨p, p, M'⟩ tmp' h' = some (h1', l')) : l.Perm l' := by
  rw [← Multiset.coe_eq_coe, (C114_eigvals geev hg ⟨p, p, M⟩ tmp h h1 l ht hl).1, (C114_eigvals geev hg ⟨p, p, M'⟩ tmp' h' h1' l' ht' hl').1]
  refine congrArg _ ?_
  show (mat h M p p p).charpoly = (mat h' M' p p p).charpoly
  rw [hM, hM', pathProduct_gauge A E Q hQ, hclosed, Matrix.mul_assoc, Matrix.charpoly_mul_comm, Matrix.mul_assoc, hQ, Matrix.mul_one]

/-- **C114** refuted for the band number 0: without a permeability `dot-eigenvectors` refuses it, with one it reads the column before the first. -/
theorem C114_start_refuted : ∃ (H m W : EM) (numBands : ℤ) (u s1 s2 res : Ptr) (h : Heap), dotEigenvectors none H m W numBands 0 u s1 s2 res h = none ∧
    ∃ called : EM → ℤ → Heap → Heap, (∀ W ib h, 0 ≤ ib → called W ib h = h) ∧
      ∃ r, dotEigenvectors (some called) H m W numBands 0 u s1 s2 res h = some r ∧ rd r.2 r.1.data 0 = 7 := by
  refine ⟨⟨1, 1, 1, ⟨0, 0⟩⟩, ⟨1, 1, 1, ⟨1, 0⟩⟩, ⟨1, 1, 1, ⟨2, 0⟩⟩, 1, ⟨3, 0⟩, ⟨4, 0⟩, ⟨5, 0⟩, ⟨6, 0⟩, fun _ _ => 1, ?_,
    fun W ib h => if ib < 0 then (fun k a => if k = W.data.arr then 7 else h k a) else h, fun W ib h hib => if_neg (by omega), ?_⟩
  · unfold dotEigenvectors dotCore
    norm_num
  · set f : EM → ℤ → Heap → Heap := fun W ib h => if ib < 0 then (fun k a => if k = W.data.arr then 7 else h k a) else h with hf
    set g : Heap := f ⟨1, 1, 1, ⟨2, 0⟩⟩ (-1) (fun _ _ => 1) with hg
    obtain ⟨h2, e2, m2, -⟩ := C64_XtY_slice2 ⟨1, 1, ⟨3, 0⟩⟩ ⟨1, 1, 1, ⟨1, 0⟩⟩ ⟨1, 1, 1, ⟨2, 0⟩⟩ 0 0 1 1 0 ⟨1, 1, ⟨4, 0⟩⟩ ⟨1, 1, ⟨5, 0⟩⟩ g
      le_rfl le_rfl rfl rfl le_rfl le_rfl le_rfl le_rfl (by decide) (by decide) (by decide) (Or.inl (by decide))
    obtain ⟨h3, e3, m3, -⟩ := sq2scm_spec ⟨1, 1, ⟨3, 0⟩⟩ ⟨6, 0⟩ h2 (by decide)
    refine ⟨(⟨1, 1, ⟨6, 0⟩⟩, h3), ?_, ?_⟩
    · unfold dotEigenvectors dotCore
      rw [if_pos (by norm_num)]
      dsimp only
      rw [dotLoop, dif_pos (by norm_num), dif_neg (by norm_num), if_neg (by norm_num)]
      dsimp only
      have e2' : emXtYslice2 ⟨1, 1, ⟨3, 0⟩⟩ ⟨1, 1, 1, ⟨1, 0⟩⟩ ⟨1, 1, 1, ⟨2, 0⟩⟩ 0 0 1 1 ((0 : ℤ) - 1 - (0 - 1)).toNat ⟨1, 1, ⟨4, 0⟩⟩ ⟨1, 1, ⟨5, 0⟩⟩
          (f ⟨1, 1, 1, ⟨2, 0⟩⟩ (0 - 1) (fun _ _ => 1)) = some h2 := e2
      rw [e2']
      dsimp only
      rw [dotLoop, dif_neg (by norm_num)]
      exact e3
    · have a3 := congrFun (congrFun m3 0) 0
      have a2 := congrFun (congrFun m2 0) 0
      refine Eq.trans a3 (Eq.trans a2 ?_)
      rw [Matrix.mul_apply]
      simp [mat, hg, hf, Ptr.add]

/-- Twice the bands, as `hfb`. -/
noncomputable def exHfb (H : EM) (W : EM) (ib : ℤ) (h : Heap) : Heap := fun k a =>
  if k = W.data.arr then 2 * h H.data.arr (H.data.off + ib.toNat + ((a - W.data.off) / W.p * H.p + (a - W.data.off) % W.p)) else h k a

theorem exHfb_contract (n : ℕ) (H : EM) (fft : ℕ → Prop) : FieldContract n ((2 : ℂ) • 1) H fft (exHfb H) := by
  refine fun W ib h hle => ⟨?_, fun k a hk _ => if_neg hk⟩
  ext i j
  have hp : 0 < W.p := Nat.zero_lt_of_lt j.2
  rw [Matrix.smul_mul, Matrix.one_mul, Matrix.smul_apply]
  show exHfb H W ib h W.data.arr (W.data.off + (i * W.p + j)) = 2 * h _ _
  have e1 : (W.data.off + (i * W.p + j) - W.data.off) / W.p = i := by
    rw [Nat.add_sub_cancel_left, Nat.mul_comm, Nat.mul_add_div hp, Nat.div_eq_of_lt j.2, Nat.add_zero]
  have e2 : (W.data.off + (i * W.p + j) - W.data.off) % W.p = j := by
    rw [Nat.add_sub_cancel_left, Nat.mul_comm, Nat.mul_add_mod, Nat.mod_eq_of_lt j.2]
  rw [exHfb, if_pos rfl, e1, e2, Int.toNat_natCast]
  rfl

/-- Non-vacuity of `C114_overlap`: three stored bands of two amplitudes against the bands from the second on, a permeability, blocks of two bands. -/
example : ∃ h', dotEigenvectors (some (exHfb ⟨2, 4, 4, ⟨0, 0⟩⟩)) ⟨2, 4, 4, ⟨0, 0⟩⟩ ⟨2, 3, 3, ⟨1, 0⟩⟩ ⟨2, 2, 2, ⟨2, 0⟩⟩ 4 2 ⟨3, 0⟩ ⟨4, 0⟩ ⟨5, 0⟩ ⟨6, 0⟩
    (fun k a => k + a) = some (⟨3, 3, ⟨6, 0⟩⟩, h') ∧ rd h' ⟨6, 0⟩ 1 = 2 * ((1 + 0) * (0 + 2) + (1 + 3) * (0 + 6)) := by
  obtain ⟨h', e, m', -⟩ := C114_overlap (some (exHfb ⟨2, 4, 4, ⟨0, 0⟩⟩)) ⟨2, 4, 4, ⟨0, 0⟩⟩ ⟨2, 3, 3, ⟨1, 0⟩⟩ ⟨2, 2, 2, ⟨2, 0⟩⟩ 4 2 ⟨3, 0⟩ ⟨4, 0⟩ ⟨5, 0⟩ ⟨6, 0⟩
    (fun k a => k + a) ((2 : ℂ) • 1) (fun _ => False) (exHfb_contract _ _ _) (by norm_num) (by norm_num) (by norm_num) rfl rfl (by norm_num) rfl
    (by decide) (by decide) (by decide) (by decide) (by decide)
  refine ⟨h', e, ?_⟩
  have := congrFun (congrFun m' 0) 1
  refine Eq.trans this ?_
  rw [Matrix.mul_apply]
  simp [emat, mat, Ptr.add, Fin.sum_univ_two]
  ring

/-- Non-vacuity of `C114_closed_path`: a `geev` that keeps its promise, and a path of one step whose mode gets another phase. -/
example : ∃ geev, GeevContract geev ∧ ∃ Q : ℕ → Matrix (Fin 1) (Fin 1) ℂ, (∀ k, Q k * (Q k).conjTranspose = 1) ∧ Q 0 ≠ 1 ∧ Q 1 = Q 0 ∧
    ∃ h1 l, sqEigvals geev ⟨1, 1, ⟨0, 0⟩⟩ ⟨1, 0⟩ (fun _ _ => 3) = some (h1, l) := by
  refine ⟨fun P p h => some (h, (Matrix.charpoly (mat h P p p p).transpose).roots.toList), fun P p h h' l he => ?_,
    fun _ => Matrix.diagonal fun _ => Complex.I, fun k => ?_, fun e => ?_, rfl, ?_⟩
  · simp only [Option.some.injEq, Prod.mk.injEq] at he
    rw [← he.1, ← he.2]
    exact ⟨Multiset.coe_toList _, fun _ _ _ => rfl⟩
  · rw [Matrix.diagonal_conjTranspose, Matrix.diagonal_mul_diagonal]
    simp
  · have := congrFun (congrFun e 0) 0
    simp at this
    have := congrArg Complex.re this
    simp at this
  · obtain ⟨h1, e1, -⟩ := C22_copy ⟨1, 1, ⟨1, 0⟩⟩ ⟨1, 1, ⟨0, 0⟩⟩ (fun _ _ => 3) rfl (Or.inl (by decide))
    exact ⟨_, _, by rw [sqEigvals, e1]⟩

end Mpb.Mat

import Verif.Kpoint.Lemmas
import Verif.Solver.BlockProps
import Mathlib.Data.List.Perm.Basic

/-!
# C93: what solve_kpoint returns
-/

namespace Mpb.Kpoint

open Matrix Mpb.Solver Mpb.Eig Spec

open scoped ComplexOrder

variable {N m : ℕ}

theorem base_iff {pb : Problem N} (g : Good pb) (x : Vec N) :
    (base pb).mulVec x = x ↔ pb.parity.mulVec x = x ∧ ∀ Z, pb.zeroK = some Z → Z.mulVec x = x := by
  rw [base_eq]
  cases hz : pb.zeroK with
  | none => simp
  | some Z =>
    obtain ⟨-, z2, z3⟩ := g.zk Z hz
    simp only [Option.some.injEq, forall_eq']
    constructor
    · intro h
      refine ⟨?_, ?_⟩
      · rw [← h, Matrix.mulVec_mulVec, ← Matrix.mul_assoc, g.parIdem]
      · rw [← h, Matrix.mulVec_mulVec, ← Matrix.mul_assoc, z3, Matrix.mul_assoc, z2]
    · rintro ⟨h1, h2⟩
      rw [← Matrix.mulVec_mulVec, h2, h1]

theorem solveKpoint_inv {pb : Problem N} {o : Outside N} {blk : ℕ} {hblk : 0 < blk} {start : List (Vec N)} {cols : List (Vec N)} {vals : List ℝ}
    (h : solveKpoint pb o blk hblk start = some (cols, vals)) :
    ∃ r, solveBlocks pb o blk hblk (constBands pb start.length).length [] [] (start.drop (constBands pb start.length).length) = some r ∧
      cols = constBands pb start.length ++ r.1 ∧ vals = List.replicate (constBands pb start.length).length 0 ++ r.2 := by
  unfold solveKpoint at h
  rw [Option.map_eq_some_iff] at h
  obtain ⟨r, hr, h⟩ := h
  cases h
  exact ⟨r, hr, rfl, rfl⟩

theorem done_nil (pb : Problem N) (blk : ℕ) : Done pb blk [] [] :=
  ⟨⟨by simp, by simp, List.Forall₂.nil⟩, by simp, by simp, by simp⟩

theorem solveKpoint_done {pb : Problem N} (g : Good pb) {o : Outside N} (ho : OutsideOK o) {blk : ℕ} {hblk : 0 < blk} {start : List (Vec N)}
    (hc : CommB pb ∨ start.length ≤ blk) {cols : List (Vec N)} {vals : List ℝ} (h : solveKpoint pb o blk hblk start = some (cols, vals)) :
    ∃ r v, cols = constBands pb start.length ++ r ∧ vals = List.replicate (constBands pb start.length).length 0 ++ v ∧ Done pb blk r v ∧
      r.length = start.length - (constBands pb start.length).length := by
  obtain ⟨r, hr, e1, e2⟩ := solveKpoint_inv h
  obtain ⟨d, l⟩ := solveBlocks_spec g ho hblk _ _ [] [] _ rfl (done_nil pb blk) (fun _ => ⟨0, by simp⟩)
    (hc.imp_right fun h => Or.inl ⟨rfl, by rw [List.length_drop]; omega⟩) r hr
  exact ⟨r.1, r.2, e1, e2, d, by rw [l, List.length_drop]; simp⟩

/-- C93.  When `solve_kpoint` returns, for any number of bands, block size, eigensolver (with or without target), starting fields, tolerance
and work space: the bands after the constant ones are normalised and orthogonal to each other, across all blocks, in the inner product of
the inverse permeability, they satisfy the parity and the zero-k constraint, and each reported eigenvalue is the Rayleigh quotient of its
band; within a block the operator does not couple the bands, and the eigenvalues increase.  The constant bands come first, with eigenvalue
0.  With a permeability and several blocks, the constraints have to commute with it (`CommB`), which they do except at k = 0
(`C93_zero_k_mu_refuted`). -/
theorem C93_result {pb : Problem N} (g : Good pb) {o : Outside N} (ho : OutsideOK o) {blk : ℕ} {hblk : 0 < blk} {start : List (Vec N)}
    (hc : CommB pb ∨ start.length ≤ blk) {cols : List (Vec N)} {vals : List ℝ} (h : solveKpoint pb o blk hblk start = some (cols, vals)) :
    ∃ r v, cols = constBands pb start.length ++ r ∧ vals = List.replicate (constBands pb start.length).length 0 ++ v ∧
      r.length = start.length - (constBands pb start.length).length ∧ Bands pb.A pb.Bm r v ∧
      (∀ x ∈ r, pb.parity.mulVec x = x ∧ ∀ Z, pb.zeroK = some Z → Z.mulVec x = x) ∧
      ∀ i j, i < j → i / blk = j / blk →
        (∀ x y, r[i]? = some x → r[j]? = some y → ip pb.A x y = 0) ∧ ∀ x y, v[i]? = some x → v[j]? = some y → x ≤ y := by
  obtain ⟨r, v, e1, e2, d, l⟩ := solveKpoint_done g ho hc h
  exact ⟨r, v, e1, e2, l, d.bands, fun x hx => (base_iff g x).1 (d.base x hx),
    fun i j hij hb => ⟨fun x y => d.uncoupled i j x y hij hb, fun x y => d.sorted i j x y hij hb⟩⟩

/-- The constant bands: orthonormal, without energy, and without a component in the space of the fields that satisfy the zero-k
constraint. -/
structure ConstOK (pb : Problem N) : Prop where
  len : ∀ nb, (pb.consts nb).length ≤ nb
  normalised : ∀ nb, ∀ x ∈ pb.consts nb, ip 1 x x = 1
  orthogonal : ∀ nb, (pb.consts nb).Pairwise fun x y => ip 1 x y = 0
  flat : ∀ nb, ∀ x ∈ pb.consts nb, pb.A.mulVec x = 0
  out : ∀ nb, ∀ x ∈ pb.consts nb, ∀ Z, pb.zeroK = some Z → Z.mulVec x = 0

theorem constBands_ok {pb : Problem N} (c : ConstOK pb) (nb : ℕ) : Bands pb.A 1 (constBands pb nb) (List.replicate (constBands pb nb).length 0) ∧
    (∀ x ∈ constBands pb nb, ∃ Z, pb.zeroK = some Z ∧ Z.mulVec x = 0) ∧ (constBands pb nb).length ≤ nb := by
  unfold constBands
  split_ifs with hz
  · refine ⟨⟨c.normalised nb, c.orthogonal nb, ?_⟩, fun x hx => ?_, c.len nb⟩
    · rw [List.forall₂_iff_get]
      refine ⟨by simp, fun i h1 h2 => ?_⟩
      unfold ip
      rw [c.flat nb _ (List.get_mem _ _)]
      simp
    · obtain ⟨Z, hZ⟩ := Option.isSome_iff_exists.1 hz.1
      exact ⟨Z, hZ, c.out nb x hx Z hZ⟩
  · exact ⟨⟨by simp, by simp, by simp⟩, by simp, by simp⟩

/-- C93, without permeability: all bands together, the constant ones included, are orthonormal and have the reported eigenvalues as Rayleigh
quotients; there is one for every band asked for. -/
theorem C93_all_bands {pb : Problem N} (g : Good pb) (hB : pb.B = none) (hk : ConstOK pb) {o : Outside N} (ho : OutsideOK o) {blk : ℕ} {hblk : 0 < blk}
    {start : List (Vec N)} {cols : List (Vec N)} {vals : List ℝ} (h : solveKpoint pb o blk hblk start = some (cols, vals)) :
    Bands pb.A 1 cols vals ∧ cols.length = start.length ∧ vals.length = start.length := by
  have hc : CommB pb := fun B h => by rw [hB] at h; cases h
  have hBm : pb.Bm = 1 := by unfold Problem.Bm; rw [hB]; rfl
  obtain ⟨r, v, rfl, rfl, d, l⟩ := solveKpoint_done g ho (Or.inl hc) h
  obtain ⟨c1, c2, c3⟩ := constBands_ok hk start.length
  have hb := d.bands
  rw [hBm] at hb
  refine ⟨bands_append c1 hb fun x hx y hy => ?_, by rw [List.length_append, l]; omega, ?_⟩
  · obtain ⟨Z, hZ, hx0⟩ := c2 x hx
    obtain ⟨z1, -, -⟩ := g.zk Z hZ
    have hy' := ((base_iff g y).1 (d.base y hy)).2 Z hZ
    have z1' : Zᴴ = Z := z1
    unfold ip
    rw [Matrix.one_mulVec, ← hy', Matrix.dotProduct_mulVec, ← z1', ← Matrix.star_mulVec, hx0]
    simp
  · have := hb.quotient.length_eq
    rw [List.length_append, List.length_replicate, ← this, l]
    omega

/-! ## Bounds -/

theorem ritz_of_bands {A B : Matrix (Fin N) (Fin N) ℂ} (hA : A.IsHermitian) (hB : B.IsHermitian) {l : List (Vec N)} {v : List ℝ} (h : Bands A B l v) (hu : Uncoupled A l)
    (hs : v.Pairwise (· ≤ ·)) : Eig.Spec.RitzBasis A B (bundle l) (fun i => v.get (i.cast h.quotient.length_eq)) := by
  refine ⟨gram_one hB h.normalised h.orthogonal, ?_, fun i j hij => ?_⟩
  · ext i j
    rw [bundle_gram, Matrix.diagonal_apply]
    rcases lt_trichotomy i j with hij | rfl | hij
    · rw [if_neg hij.ne]; exact List.pairwise_iff_get.1 hu i j hij
    · rw [if_pos rfl]; exact (List.forall₂_iff_get.1 h.quotient).2 i i.2 (h.quotient.length_eq ▸ i.2)
    · rw [if_neg hij.ne', ip_herm hA, List.pairwise_iff_get.1 hu j i hij, star_zero]
  · rcases eq_or_lt_of_le hij with rfl | hij
    · exact le_refl _
    · exact List.pairwise_iff_get.1 hs _ _ hij

theorem span_fixed {Q : Matrix (Fin N) (Fin N) ℂ} {l : List (Vec N)} (h : ∀ x ∈ l, Q.mulVec x = x) (c : Fin l.length → ℂ) :
    Q.mulVec ((bundle l).mulVec c) = (bundle l).mulVec c := by
  rw [Matrix.mulVec_mulVec]
  congr 1
  ext i j
  exact congrFun (h (l.get j) (List.get_mem _ _)) i

/-- Bands have, together, at least as much energy as the lowest modes. -/
theorem sum_bound {A B : Matrix (Fin N) (Fin N) ℂ} (hA : A.IsHermitian) (hB : B.IsHermitian) {l : List (Vec N)} {v : List ℝ} (h : Bands A B l v)
    {P : Vec N → Prop} (hP : ∀ c, P ((bundle l).mulVec c)) {V : Matrix (Fin N) (Fin m) ℂ} {lam : Fin m → ℝ} (hV : Eig.Spec.Modes A B P V lam)
    (hm : v.length ≤ m) : ∑ j : Fin v.length, lam (Fin.castLE hm j) ≤ v.sum := by
  set W := bundle l with hW
  have hWW : Wᴴ * B * W = 1 := gram_one hB h.normalised h.orthogonal
  have hH : (Wᴴ * A * W).IsHermitian := by
    unfold Matrix.IsHermitian
    rw [conjTranspose_mul, conjTranspose_mul, conjTranspose_conjTranspose, hA.eq, Matrix.mul_assoc]
  obtain ⟨U, ev, u1, u2, u3, u4⟩ := Davidson.spectral _ hH
  have hR : Eig.Spec.RitzBasis A B (W * Uᴴ) ev := by
    refine ⟨?_, ?_, u4⟩
    · rw [conjTranspose_mul, conjTranspose_conjTranspose, show U * Wᴴ * B * (W * Uᴴ) = U * (Wᴴ * B * W) * Uᴴ by simp only [Matrix.mul_assoc], hWW,
        Matrix.mul_one, u1]
    · rw [conjTranspose_mul, conjTranspose_conjTranspose, show U * Wᴴ * A * (W * Uᴴ) = U * (Wᴴ * A * W) * Uᴴ by simp only [Matrix.mul_assoc], u3,
        show U * (Uᴴ * diagonal (fun i => ((ev i : ℝ) : ℂ)) * U) * Uᴴ = (U * Uᴴ) * diagonal (fun i => ((ev i : ℝ) : ℂ)) * (U * Uᴴ) by
          simp only [Matrix.mul_assoc], u1, Matrix.one_mul, Matrix.mul_one]
  have hle := h.quotient.length_eq
  have hb : ∀ j : Fin l.length, lam (Fin.castLE (hle ▸ hm) j) ≤ ev j := fun j =>
    C75_upper_bound hR (fun c => by rw [← Matrix.mulVec_mulVec]; exact hP _) hV j _ rfl
  have htr : (((∑ j, ev j : ℝ)) : ℂ) = ((v.sum : ℝ) : ℂ) := by
    have h1 : (Wᴴ * A * W).trace = ((∑ j, ev j : ℝ) : ℂ) := by
      rw [u3, Matrix.trace_mul_comm, ← Matrix.mul_assoc, u1, Matrix.one_mul, Matrix.trace_diagonal]
      push_cast
      rfl
    rw [← h1, Matrix.trace]
    have h2 : ∀ i : Fin l.length, (Wᴴ * A * W).diag i = ((v.get (i.cast hle) : ℝ) : ℂ) := fun i => by
      rw [Matrix.diag_apply, bundle_gram]
      exact (List.forall₂_iff_get.1 h.quotient).2 i i.2 (hle ▸ i.2)
    rw [Finset.sum_congr rfl (fun i _ => h2 i), ← Complex.ofReal_sum]
    congr 1
    exact ((finCongr hle).sum_comp (fun i => v.get i)).trans (Fin.sum_univ_getElem v)
  rw [← (Complex.ofReal_injective htr), ← (finCongr hle).sum_comp (fun j => lam (Fin.castLE hm j))]
  exact Finset.sum_le_sum fun j _ => hb j

theorem forall₂_sublist {α β : Type*} {R : α → β → Prop} : ∀ {l : List α} {v sub : List β}, List.Forall₂ R l v → sub.Sublist v →
    ∃ l', l'.Sublist l ∧ List.Forall₂ R l' sub := by
  intro l v sub h hs
  induction hs generalizing l with
  | slnil => cases h; exact ⟨[], List.Sublist.slnil, List.Forall₂.nil⟩
  | cons a _ ih =>
    cases h with
    | cons h1 h2 =>
      obtain ⟨l', s1, s2⟩ := ih h2
      exact ⟨l', s1.cons _, s2⟩
  | cons_cons a _ ih =>
    cases h with
    | cons h1 h2 =>
      obtain ⟨l', s1, s2⟩ := ih h2
      exact ⟨_, s1.cons_cons _, List.Forall₂.cons h1 s2⟩

theorem bands_sublist {A B : Matrix (Fin N) (Fin N) ℂ} {l : List (Vec N)} {v sub : List ℝ} (h : Bands A B l v) (hs : sub.Sublist v) :
    ∃ l', l'.Sublist l ∧ Bands A B l' sub := by
  obtain ⟨l', s1, s2⟩ := forall₂_sublist h.quotient hs
  exact ⟨l', s1, fun x hx => h.normalised x (s1.subset hx), h.orthogonal.sublist s1, s2⟩

/-- The fields that satisfy the constraints of a problem. -/
def Allowed (pb : Problem N) (x : Vec N) : Prop := pb.parity.mulVec x = x ∧ ∀ Z, pb.zeroK = some Z → Z.mulVec x = x

theorem allowed_span {pb : Problem N} (g : Good pb) {l : List (Vec N)} (h : ∀ x ∈ l, (base pb).mulVec x = x) (c : Fin l.length → ℂ) :
    Allowed pb ((bundle l).mulVec c) := (base_iff g _).1 (span_fixed h c)

/-- C93 (bound).  Converged or not, and with any block size: the sum of any choice of the reported eigenvalues (other than those of the
constant bands) is at least the sum of as many of the lowest true ones.  In particular no reported eigenvalue is below the lowest true
one. -/
theorem C93_sum_bound {pb : Problem N} (g : Good pb) {o : Outside N} (ho : OutsideOK o) {blk : ℕ} {hblk : 0 < blk} {start : List (Vec N)}
    (hc : CommB pb ∨ start.length ≤ blk) {cols : List (Vec N)} {vals : List ℝ} (h : solveKpoint pb o blk hblk start = some (cols, vals))
    {V : Matrix (Fin N) (Fin m) ℂ} {lam : Fin m → ℝ}
    (hV : Eig.Spec.Modes pb.A pb.Bm (fun x => pb.parity.mulVec x = x ∧ ∀ Z, pb.zeroK = some Z → Z.mulVec x = x) V lam) {chosen : List ℝ}
    (hs : chosen.Sublist (vals.drop (constBands pb start.length).length)) (hm : chosen.length ≤ m) :
    ∑ j : Fin chosen.length, lam (Fin.castLE hm j) ≤ chosen.sum := by
  obtain ⟨r, v, -, rfl, d, -⟩ := solveKpoint_done g ho hc h
  rw [List.drop_left' (by simp)] at hs
  obtain ⟨l', s1, s2⟩ := bands_sublist d.bands hs
  exact sum_bound g.hA (Bm_posDef g).isHermitian s2 (fun c => allowed_span g (fun x hx => d.base x (s1.subset hx)) c) hV hm

theorem perm_bound {A B : Matrix (Fin N) (Fin N) ℂ} (hA : A.IsHermitian) (hB : B.IsHermitian) {l : List (Vec N)} {v : List ℝ} (h : Bands A B l v) (hu : Uncoupled A l)
    {Q : Matrix (Fin N) (Fin N) ℂ} (hQ : ∀ x ∈ l, Q.mulVec x = x) {V : Matrix (Fin N) (Fin m) ℂ} {lam : Fin m → ℝ}
    (hV : Eig.Spec.Modes A B (fun x => Q.mulVec x = x) V lam) {vs : List ℝ} (hp : vs.Perm v) (hs : vs.Pairwise (· ≤ ·)) (k : Fin m) {x : ℝ}
    (hx : vs[(k : ℕ)]? = some x) : lam k ≤ x := by
  have hcomp : Relation.Comp (List.Forall₂ (fun x v => ip A x x = ((v : ℝ) : ℂ))) List.Perm l vs := ⟨v, h.quotient, hp.symm⟩
  rw [List.forall₂_comp_perm_eq_perm_comp_forall₂] at hcomp
  obtain ⟨l', hp', hf⟩ := hcomp
  have hsym : ∀ M : Matrix (Fin N) (Fin N) ℂ, M.IsHermitian → ∀ {x y : Vec N}, ip M x y = 0 → ip M y x = 0 := fun M hM x y h0 => by
    rw [ip_herm hM, h0, star_zero]
  have h' : Bands A B l' vs := ⟨fun x hx => h.normalised x (hp'.mem_iff.2 hx), (hp'.pairwise_iff (hsym B hB)).1 h.orthogonal, hf⟩
  have hu' : Uncoupled A l' := (hp'.pairwise_iff (hsym A hA)).1 hu
  obtain ⟨hk, rfl⟩ := List.getElem?_eq_some_iff.1 hx
  have := C75_upper_bound (ritz_of_bands hA hB h' hu' hs) (P := fun x => Q.mulVec x = x) (fun c => span_fixed (fun x hx => hQ x (hp'.mem_iff.2 hx)) c) hV
    ⟨k, by rw [hf.length_eq]; exact hk⟩ k rfl
  exact this

theorem modes_base {pb : Problem N} (g : Good pb) {V : Matrix (Fin N) (Fin m) ℂ} {lam : Fin m → ℝ}
    (hV : Eig.Spec.Modes pb.A pb.Bm (fun x => pb.parity.mulVec x = x ∧ ∀ Z, pb.zeroK = some Z → Z.mulVec x = x) V lam) :
    Eig.Spec.Modes pb.A pb.Bm (fun x => (base pb).mulVec x = x) V lam :=
  ⟨hV.orthonormal, hV.eigen, hV.sorted, fun x hx => hV.complete x ((base_iff g x).1 hx)⟩

/-- C93 (one by one).  When the bands of all blocks but the last are exact, every reported eigenvalue, in increasing order, is at least the
true one of the same number.  With a single block nothing has to be exact. -/
theorem C93_upper_bound {pb : Problem N} (g : Good pb) {o : Outside N} (ho : OutsideOK o) {blk : ℕ} {hblk : 0 < blk} {start : List (Vec N)}
    (hc : CommB pb ∨ start.length ≤ blk) {cols : List (Vec N)} {vals : List ℝ} (h : solveKpoint pb o blk hblk start = some (cols, vals))
    {V : Matrix (Fin N) (Fin m) ℂ} {lam : Fin m → ℝ}
    (hV : Eig.Spec.Modes pb.A pb.Bm (fun x => pb.parity.mulVec x = x ∧ ∀ Z, pb.zeroK = some Z → Z.mulVec x = x) V lam)
    (hex : ∀ i j x (e : ℝ), i / blk < j / blk → (constBands pb start.length).length + j < start.length →
      cols[(constBands pb start.length).length + i]? = some x → vals[(constBands pb start.length).length + i]? = some e →
      pb.A.mulVec x = ((e : ℝ) : ℂ) • pb.Bm.mulVec x)
    {vs : List ℝ} (hp : vs.Perm (vals.drop (constBands pb start.length).length)) (hs : vs.Pairwise (· ≤ ·)) (k : Fin m) {x : ℝ}
    (hx : vs[(k : ℕ)]? = some x) : lam k ≤ x := by
  obtain ⟨r, v, rfl, rfl, d, hl⟩ := solveKpoint_done g ho hc h
  rw [List.drop_left' (by simp)] at hp
  refine perm_bound g.hA (Bm_posDef g).isHermitian d.bands ?_ d.base (modes_base g hV) hp hs k hx
  unfold Uncoupled
  rw [List.pairwise_iff_getElem]
  intro i j hi hj hij
  by_cases hb : i / blk = j / blk
  · exact d.uncoupled i j _ _ hij hb (List.getElem?_eq_getElem hi) (List.getElem?_eq_getElem hj)
  · have hlt : i / blk < j / blk := lt_of_le_of_ne (Nat.div_le_div_right hij.le) hb
    have hiv : i < v.length := d.bands.quotient.length_eq ▸ hi
    have he := hex i j r[i] v[i] hlt (by omega) (by rw [List.getElem?_append_right (by omega), Nat.add_sub_cancel_left, List.getElem?_eq_getElem hi])
      (by rw [List.getElem?_append_right (by simp), List.length_replicate, Nat.add_sub_cancel_left, List.getElem?_eq_getElem hiv])
    have h0 : ip pb.Bm r[i] r[j] = 0 := List.pairwise_iff_getElem.1 d.bands.orthogonal i j hi hj hij
    have h1 : ip pb.A r[j] r[i] = 0 := by
      unfold ip
      rw [he, dotProduct_smul]
      have : ip pb.Bm r[j] r[i] = 0 := by rw [ip_herm (Bm_posDef g).isHermitian, h0, star_zero]
      unfold ip at this
      rw [this, smul_zero]
    rw [ip_herm g.hA, h1, star_zero]

/-- C93 (frequencies).  For a positive semidefinite operator no reported eigenvalue is negative, so that the reported frequencies are real and
their squares are the eigenvalues. -/
theorem C93_frequencies {pb : Problem N} (g : Good pb) (hA : pb.A.PosSemidef) {o : Outside N} (ho : OutsideOK o) {blk : ℕ} {hblk : 0 < blk}
    {start : List (Vec N)} (hc : CommB pb ∨ start.length ≤ blk) {cols : List (Vec N)} {vals : List ℝ}
    (h : solveKpoint pb o blk hblk start = some (cols, vals)) :
    (∀ e ∈ vals, 0 ≤ e) ∧ (pb.negativeOK = false → (freqs pb vals).map (fun f => f ^ 2) = vals) ∧ ∀ f ∈ freqs pb vals, 0 ≤ f := by
  obtain ⟨r, v, rfl, rfl, d, hl⟩ := solveKpoint_done g ho hc h
  have hpos : ∀ e ∈ List.replicate (constBands pb start.length).length (0 : ℝ) ++ v, 0 ≤ e := by
    intro e he
    rcases List.mem_append.1 he with he | he
    · rw [List.eq_of_mem_replicate he]
    · obtain ⟨i, hi, rfl⟩ := List.mem_iff_getElem.1 he
      have hq := (List.forall₂_iff_get.1 d.bands.quotient).2 i (d.bands.quotient.length_eq ▸ hi) hi
      have := hA.dotProduct_mulVec_nonneg (r.get ⟨i, d.bands.quotient.length_eq ▸ hi⟩)
      unfold ip at hq
      rw [hq] at this
      exact Complex.zero_le_real.1 this
  refine ⟨hpos, fun hn => ?_, fun f hf => ?_⟩
  · unfold freqs
    rw [List.map_map]
    conv_rhs => rw [← List.map_id (List.replicate (constBands pb start.length).length (0 : ℝ) ++ v)]
    refine List.map_congr_left fun e he => ?_
    simp only [Function.comp, hn, Bool.false_eq_true, if_false, id]
    exact Real.sq_sqrt (hpos e he)
  · unfold freqs at hf
    obtain ⟨e, he, rfl⟩ := List.mem_map.1 hf
    split_ifs
    · exact hpos e he
    · exact Real.sqrt_nonneg _

/-! ## The arrays -/

/-- The coefficients in an array. -/
def toVec (N : ℕ) (c : Solver.Spec.Col) : Vec N := fun i => c i

def ofVec (x : Vec N) : Solver.Spec.Col := fun i => if h : i < N then x ⟨i, h⟩ else 0

theorem toVec_ofVec (x : Vec N) : toVec N (ofVec x) = x := by
  funext i
  unfold toVec ofVec
  rw [dif_pos i.2]

/-- The block solver as a function on arrays. -/
noncomputable def blockFn (pb : Problem N) (o : Outside N) (ib : ℕ) (solved guess : List Solver.Spec.Col) : List Solver.Spec.Col × List ℝ :=
  match solveBlock pb o ib (solved.map (toVec N)) (guess.map (toVec N)) with
  | some r => (r.1.map ofVec, r.2)
  | none => (guess, List.replicate guess.length 0)

theorem solveAll_eq (pb : Problem N) (o : Outside N) (blk : ℕ) (hblk : 0 < blk) : ∀ (n : ℕ) (ib : ℕ) (S : List Solver.Spec.Col) (vals : List ℝ)
    (rest : List Solver.Spec.Col), rest.length = n → ∀ r, solveBlocks pb o blk hblk ib (S.map (toVec N)) vals (rest.map (toVec N)) = some r →
    ((Solver.Spec.solveAll (blockFn pb o) blk hblk ib S vals rest).1.map (toVec N), (Solver.Spec.solveAll (blockFn pb o) blk hblk ib S vals rest).2) = r := by
  intro n
  induction n using Nat.strongRecOn with
  | _ n ih =>
    intro ib S vals rest hn r h
    rw [solveBlocks] at h
    rw [Solver.Spec.solveAll]
    by_cases hr : rest = []
    · rw [dif_pos (by rw [hr]; rfl)] at h
      rw [dif_pos hr]
      exact Option.some.inj h
    · have hr' : rest.map (toVec N) ≠ [] := fun h => hr (List.map_eq_nil_iff.1 h)
      rw [dif_neg hr', Option.bind_eq_some_iff] at h
      obtain ⟨s, hs, h⟩ := h
      rw [dif_neg hr]
      have hb : blockFn pb o ib S (rest.take blk) = (s.1.map ofVec, s.2) := by
        unfold blockFn
        rw [List.map_take, hs]
      rw [hb]
      have hpos := List.length_pos_iff.2 hr
      refine ih _ (by rw [List.length_drop]; omega) (ib + blk) _ _ (rest.drop blk) rfl r ?_
      have e : (S ++ s.1.map ofVec).map (toVec N) = S.map (toVec N) ++ s.1 := by
        rw [List.map_append, List.map_map]
        congr 1
        conv_rhs => rw [← List.map_id s.1]
        exact List.map_congr_left fun x _ => toVec_ofVec x
      simp only
      rw [e, List.map_drop]
      exact h

/-- C93 (memory).  The arrays: run on the memory of the program (C19), with eigensolvers that compute what `solveBlock` computes, the code
leaves in `H` and `eigvals` the bands and eigenvalues of `solveKpoint`, and everything said here is true of them. -/
theorem C93_memory {pb : Problem N} {o : Outside N} {env : Solver.Env} {H Hblock muinvH : Mat.EM} {B : Solver.Spec.Col → Solver.Spec.Col}
    {constCol : ℕ → Solver.Spec.Col} {ib0 : ℕ} (ok : Solver.Spec.EnvOK env H Hblock muinvH B (blockFn pb o) constCol ib0) {nb : ℕ} (hHp : H.p = nb)
    (hHa : H.allocP = nb) (hp : Hblock.p = Hblock.allocP) (hp0 : 0 < Hblock.p) (hn : Hblock.n = H.n) (hal : H.data.arr ≠ Hblock.data.arr ∨ Hblock = H)
    (hmu : muinvH = H ∨ (muinvH.data.arr ≠ H.data.arr ∧ muinvH.data.arr ≠ Hblock.data.arr ∧ nb ≤ muinvH.allocP ∧ muinvH.n = H.n)) (hle : ib0 ≤ nb)
    (zeroK : Bool) (hz : zeroK = false → ib0 = 0) (hconst : constBands pb nb = (List.range ib0).map fun j => toVec N (constCol j)) (h : Mat.Heap)
    {cols : List (Vec N)} {vals : List ℝ} (hs : solveKpoint pb o Hblock.p hp0 ((Solver.Spec.colList h H nb).map (toVec N)) = some (cols, vals)) :
    ∃ h' ev, Solver.solveKpoint env nb zeroK ib0 Hblock.p H Hblock muinvH h = some (H, Hblock, Hblock.p, h', ev) ∧
      (Solver.Spec.colList h' H nb).map (toVec N) = cols ∧ (List.range nb).map ev = vals := by
  obtain ⟨h', ev, e1, e2, e3⟩ := Solver.C19_solve_kpoint ok hHp hHa hp hp0 hn hal hmu hle zeroK hz h
  obtain ⟨r, hr, rfl, rfl⟩ := solveKpoint_inv hs
  have hlen : ((Solver.Spec.colList h H nb).map (toVec N)).length = nb := by simp [Solver.Spec.colList]
  have hcl : (constBands pb nb).length = ib0 := by rw [hconst]; simp
  rw [hlen, hcl, ← List.map_drop] at hr
  have := solveAll_eq pb o Hblock.p hp0 _ ib0 [] [] _ rfl r hr
  refine ⟨h', ev, e1, ?_, ?_⟩
  · rw [e2, List.map_append, List.map_map, hlen, hconst, ← this]
    rfl
  · rw [e3, hlen, hcl, ← this]

end Mpb.Kpoint

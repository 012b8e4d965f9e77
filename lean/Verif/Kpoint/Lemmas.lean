import Verif.Kpoint.Model
import Verif.Kpoint.Spec
import Verif.Davidson.Runs

/-!
# Lemmas about solve_kpoint
-/

namespace Mpb.Kpoint

open Matrix Mpb.Solver Mpb.Eig Spec

open scoped ComplexOrder

variable {N : ℕ}

/-- The operators: `A` Hermitian, `B` positive definite; the two constraints are orthogonal projections that commute. -/
structure Good (pb : Problem N) : Prop where
  hA : pb.A.IsHermitian
  hB : ∀ B, pb.B = some B → B.PosDef
  parHerm : pb.parity.IsHermitian
  parIdem : pb.parity * pb.parity = pb.parity
  zk : ∀ Z, pb.zeroK = some Z → Z.IsHermitian ∧ Z * Z = Z ∧ Z * pb.parity = pb.parity * Z
  tol : 0 ≤ pb.tol
  proj : pb.fl.project = true → pb.B = none

/-- The constraints respect the permeability. -/
def CommB (pb : Problem N) : Prop := ∀ B, pb.B = some B → pb.parity * B = B * pb.parity ∧ ∀ Z, pb.zeroK = some Z → Z * B = B * Z

/-- LAPACK keeps its contracts. -/
structure OutsideOK (o : Outside N) : Prop where
  eig : ∀ ib p, Eig.EnvOK (o.eig ib p)
  dav : ∀ ib p, Davidson.EnvOK (o.dav ib p)

/-- Parity and zero-k constraint together. -/
def base (pb : Problem N) : Matrix (Fin N) (Fin N) ℂ := chain (constraints pb [])

theorem Bm_posDef {pb : Problem N} (g : Good pb) : pb.Bm.PosDef := by
  unfold Problem.Bm
  cases hB : pb.B with
  | none => simp only [Option.getD_none]; exact Matrix.PosDef.one
  | some B => simp only [Option.getD_some]; exact g.hB B hB

theorem base_eq (pb : Problem N) : base pb = match pb.zeroK with | some Z => pb.parity * Z | none => pb.parity := by
  unfold base constraints
  cases pb.zeroK <;> simp [chain]

theorem base_spec {pb : Problem N} (g : Good pb) :
    (base pb)ᴴ = base pb ∧ base pb * base pb = base pb ∧ (CommB pb → base pb * pb.Bm = pb.Bm * base pb) := by
  have hp : pb.parityᴴ = pb.parity := g.parHerm
  have hB : ∀ Q : Matrix (Fin N) (Fin N) ℂ, (∀ B, pb.B = some B → Q * B = B * Q) → Q * pb.Bm = pb.Bm * Q := by
    intro Q h
    unfold Problem.Bm
    cases hb : pb.B with
    | none => simp
    | some B => simp only [Option.getD_some]; exact h B hb
  rw [base_eq]
  cases hz : pb.zeroK with
  | none => exact ⟨hp, g.parIdem, fun hc => hB _ fun B h => (hc B h).1⟩
  | some Z =>
    obtain ⟨z1, z2, z3⟩ := g.zk Z hz
    have z1' : Zᴴ = Z := z1
    refine ⟨?_, ?_, fun hc => hB _ fun B h => ?_⟩
    · simp only; rw [conjTranspose_mul, hp, z1', z3]
    · simp only
      rw [show pb.parity * Z * (pb.parity * Z) = pb.parity * (Z * pb.parity) * Z by simp only [Matrix.mul_assoc], z3, ← Matrix.mul_assoc, g.parIdem,
        Matrix.mul_assoc, z2]
    · obtain ⟨c1, c2⟩ := hc B h
      simp only
      rw [Matrix.mul_assoc, c2 Z hz, ← Matrix.mul_assoc, c1, Matrix.mul_assoc]

theorem chain_eq (pb : Problem N) (solved : List (Vec N)) :
    chain (constraints pb solved) = if solved = [] then base pb else base pb * deflator pb solved := by
  unfold base constraints
  cases solved with
  | nil => simp
  | cons x l => cases pb.zeroK <;> simp [chain]

/-! ## Bundles -/

theorem bundle_gram (A : Matrix (Fin N) (Fin N) ℂ) (l l' : List (Vec N)) (i : Fin l.length) (j : Fin l'.length) :
    ((bundle l)ᴴ * A * bundle l') i j = ip A (l.get i) (l'.get j) := by
  unfold ip
  rw [Matrix.mul_assoc, Matrix.mul_apply']
  rfl

theorem ip_herm {A : Matrix (Fin N) (Fin N) ℂ} (h : A.IsHermitian) (x y : Vec N) : ip A y x = star (ip A x y) := by
  unfold ip
  have h' : Aᴴ = A := h
  rw [← Matrix.star_dotProduct_star, star_star, Matrix.star_mulVec, h', Matrix.dotProduct_mulVec, dotProduct_comm]

theorem gram_one {B : Matrix (Fin N) (Fin N) ℂ} (hB : B.IsHermitian) {l : List (Vec N)} (h1 : ∀ x ∈ l, ip B x x = 1)
    (h2 : l.Pairwise fun x y => ip B x y = 0) : (bundle l)ᴴ * B * bundle l = 1 := by
  ext i j
  rw [bundle_gram, Matrix.one_apply]
  rcases lt_trichotomy i j with h | rfl | h
  · rw [if_neg h.ne]; exact List.pairwise_iff_get.1 h2 i j h
  · rw [if_pos rfl]; exact h1 _ (List.get_mem _ _)
  · rw [if_neg h.ne', ip_herm hB, List.pairwise_iff_get.1 h2 j i h, star_zero]

theorem columns_gram {p : ℕ} (A : Matrix (Fin N) (Fin N) ℂ) (Y : M N p) (i j : Fin p) : ip A (fun n => Y n i) (fun n => Y n j) = (Yᴴ * A * Y) i j := by
  unfold ip
  rw [Matrix.mul_assoc, Matrix.mul_apply']
  rfl

theorem columns_length {p : ℕ} (Y : M N p) : (columns Y).length = p := by simp [columns]

theorem bundle_columns {p : ℕ} (Y : M N p) (j : Fin p) : (columns Y)[(j : ℕ)]? = some (fun n => Y n j) := by simp [columns]

theorem mem_columns {p : ℕ} {Y : M N p} {x : Vec N} : x ∈ columns Y ↔ ∃ j, x = fun n => Y n j := by
  unfold columns
  rw [List.mem_ofFn]
  exact ⟨fun ⟨j, h⟩ => ⟨j, h.symm⟩, fun ⟨j, h⟩ => ⟨j, h.symm⟩⟩

theorem columns_pairwise {p : ℕ} {Y : M N p} {R : Vec N → Vec N → Prop} (h : ∀ i j, i < j → R (fun n => Y n i) (fun n => Y n j)) : (columns Y).Pairwise R := by
  unfold columns
  rw [List.pairwise_ofFn]
  exact fun i j hij => h i j hij

/-- A Ritz basis is a list of bands. -/
theorem bands_of_ritz {p : ℕ} {A B : Matrix (Fin N) (Fin N) ℂ} {Y : M N p} {vals : Fin p → ℝ} (h : Eig.Spec.RitzBasis A B Y vals) :
    Bands A B (columns Y) (List.ofFn vals) ∧ Uncoupled A (columns Y) := by
  refine ⟨⟨fun x hx => ?_, columns_pairwise fun i j hij => ?_, ?_⟩, columns_pairwise fun i j hij => ?_⟩
  · obtain ⟨j, rfl⟩ := mem_columns.1 hx
    rw [columns_gram, h.orthonormal, Matrix.one_apply_eq]
  · rw [columns_gram, h.orthonormal, Matrix.one_apply_ne hij.ne]
  · rw [List.forall₂_iff_get]
    refine ⟨by simp [columns], fun i h1 h2 => ?_⟩
    simp only [columns, List.get_eq_getElem, List.getElem_ofFn]
    rw [columns_gram, h.diagonal, Matrix.diagonal_apply_eq]
  · rw [columns_gram, h.diagonal, Matrix.diagonal_apply_ne _ hij.ne]

/-! ## One block -/

theorem squared_herm {A : Matrix (Fin N) (Fin N) ℂ} (hA : A.IsHermitian) (w : ℝ) : (Target.squared A w).IsHermitian := by
  have h1 : (A - ((w : ℂ) ^ 2) • (1 : Matrix (Fin N) (Fin N) ℂ))ᴴ = A - ((w : ℂ) ^ 2) • (1 : Matrix (Fin N) (Fin N) ℂ) := by
    rw [conjTranspose_sub, hA.eq, conjTranspose_smul, conjTranspose_one]
    congr 2
    simp
  unfold Target.squared Matrix.IsHermitian
  rw [conjTranspose_mul, h1]

theorem run_spec {pb : Problem N} (g : Good pb) {o : Outside N} (ho : OutsideOK o) {A : Matrix (Fin N) (Fin N) ℂ} (hA : A.IsHermitian)
    {C : Matrix (Fin N) (Fin N) ℂ} (hC : C * C = C) {ib p : ℕ} (hp : 0 < p) {Y : M N p} {r : M N p × (Fin p → ℝ)} (hd : pb.davidson = true → pb.B = none)
    (h : run pb o A C ib Y = some r) : Eig.Spec.RitzBasis A pb.Bm r.1 r.2 ∧ C * r.1 = r.1 := by
  unfold run at h
  by_cases hdav : pb.davidson = true
  · rw [if_pos hdav, Option.map_eq_some_iff] at h
    obtain ⟨s, hs, rfl⟩ := h
    obtain ⟨r1, r2, -⟩ := Davidson.C80_result ⟨hp, hA, fun C' h => by cases h; exact hC⟩ (ho.dav ib p) hs
    have : pb.Bm = 1 := by unfold Problem.Bm; rw [hd hdav]; rfl
    rw [this]
    exact ⟨r1, r2 C rfl⟩
  · rw [if_neg hdav, Option.map_eq_some_iff] at h
    obtain ⟨s, hs, rfl⟩ := h
    obtain ⟨r1, r2, -⟩ := Eig.C74_result ⟨hp, hA, g.hB, fun C' h => (by cases h; exact hC),
      fun hf C B _ (hB : pb.B = some B) => (by rw [g.proj hf] at hB; cases hB), g.tol⟩ (ho.eig ib p) hs
    exact ⟨r1, r2 C rfl⟩

theorem getEigenvals_spec {o : Outside N} (ho : OutsideOK o) {A : Matrix (Fin N) (Fin N) ℂ} (hA : A.IsHermitian) {ib p : ℕ} {Y : M N p}
    (hY : Yᴴ * Y = 1) : Eig.Spec.RitzBasis A 1 (getEigenvals o A ib Y).1 (getEigenvals o A ib Y).2 ∧ ∃ T, (getEigenvals o A ib Y).1 = Y * T := by
  have he := ho.eig ib p
  have hU : ((o.eig ib p).inv (Yᴴ * Y)).getD (o.noInv ib p) = 1 := by
    rw [hY, (he.inv 1 Matrix.isHermitian_one).1 Matrix.PosDef.one]; simp
  obtain ⟨q1, q2⟩ := he.sqrtm 1 Matrix.PosDef.one
  have q1' : ((o.eig ib p).sqrtm 1)ᴴ = (o.eig ib p).sqrtm 1 := q1
  unfold getEigenvals
  simp only [hU]
  rw [q1']
  generalize (o.eig ib p).sqrtm 1 = R at q1' q2
  set W := Y * R with hW
  have hWW : Wᴴ * W = 1 := by
    rw [hW, conjTranspose_mul, q1', show R * Yᴴ * (Y * R) = R * (Yᴴ * Y) * R by simp only [Matrix.mul_assoc], hY, Matrix.mul_one, q2]
  have hH : (Wᴴ * (A * W)).IsHermitian := by
    unfold Matrix.IsHermitian
    rw [conjTranspose_mul, conjTranspose_mul, conjTranspose_conjTranspose, hA.eq, Matrix.mul_assoc]
  obtain ⟨v1, v2, v3, v4⟩ := he.heev _ hH
  set V := (o.eig ib p).heev (Wᴴ * (A * W)) with hV
  refine ⟨⟨?_, ?_, v4⟩, R * V.1ᴴ, by rw [hW, Matrix.mul_assoc]⟩
  · rw [Matrix.mul_one, conjTranspose_mul, conjTranspose_conjTranspose, show V.1 * Wᴴ * (W * V.1ᴴ) = V.1 * (Wᴴ * W) * V.1ᴴ by simp only [Matrix.mul_assoc],
      hWW, Matrix.mul_one, v1]
  · rw [conjTranspose_mul, conjTranspose_conjTranspose, show V.1 * Wᴴ * A * (W * V.1ᴴ) = V.1 * (Wᴴ * (A * W)) * V.1ᴴ by simp only [Matrix.mul_assoc], v3,
      show V.1 * (V.1ᴴ * diagonal (fun i => ((V.2 i : ℝ) : ℂ)) * V.1) * V.1ᴴ = (V.1 * V.1ᴴ) * diagonal (fun i => ((V.2 i : ℝ) : ℂ)) * (V.1 * V.1ᴴ) by
        simp only [Matrix.mul_assoc], v1, Matrix.one_mul, Matrix.mul_one]

theorem solveBundle_spec {pb : Problem N} (g : Good pb) {o : Outside N} (ho : OutsideOK o) {C : Matrix (Fin N) (Fin N) ℂ} (hC : C * C = C) {ib p : ℕ}
    (hp : 0 < p) {Y : M N p} {r : M N p × (Fin p → ℝ)} (h : solveBundle pb o C ib Y = some r) :
    Eig.Spec.RitzBasis pb.A pb.Bm r.1 r.2 ∧ C * r.1 = r.1 := by
  unfold solveBundle at h
  split at h
  · rename_i w hw
    by_cases hB : pb.B.isSome = true
    · rw [if_pos hB] at h; cases h
    rw [if_neg hB] at h
    have hB' : pb.B = none := by simpa using hB
    have hBm : pb.Bm = 1 := by unfold Problem.Bm; rw [hB']; rfl
    rw [Option.bind_eq_some_iff] at h
    obtain ⟨r', hr', h⟩ := h
    split_ifs at h with hn
    cases h
    obtain ⟨s1, s2⟩ := run_spec g ho (squared_herm g.hA w) hC hp (fun _ => hB') hr'
    have hYY : (r'.1)ᴴ * r'.1 = 1 := by have := s1.orthonormal; rwa [hBm, Matrix.mul_one] at this
    obtain ⟨t1, T, t2⟩ := getEigenvals_spec (ib := ib) ho g.hA hYY
    rw [hBm]
    refine ⟨t1, ?_⟩
    rw [t2, ← Matrix.mul_assoc, s2]
  · split_ifs at h with hB
    exact run_spec g ho g.hA hC hp (fun hd => by
      by_contra hn
      exact hB ⟨hd, Option.isSome_iff_ne_none.2 hn⟩) h

/-- The constraints of a block are a projection onto the fields that satisfy parity and zero-k constraint and are orthogonal to the
bands solved already. -/
theorem chain_spec {pb : Problem N} (g : Good pb) {solved : List (Vec N)} (h1 : ∀ x ∈ solved, ip pb.Bm x x = 1)
    (h2 : solved.Pairwise fun x y => ip pb.Bm x y = 0) (h3 : ∀ x ∈ solved, (base pb).mulVec x = x) (hc : CommB pb ∨ solved = []) :
    chain (constraints pb solved) * chain (constraints pb solved) = chain (constraints pb solved) ∧
      ∀ {p : ℕ} (Z : M N p), chain (constraints pb solved) * Z = Z ↔ base pb * Z = Z ∧ (bundle solved)ᴴ * pb.Bm * Z = 0 := by
  obtain ⟨b1, b2, b3⟩ := base_spec g
  have hBH : pb.Bmᴴ = pb.Bm := (Bm_posDef g).isHermitian
  rw [chain_eq]
  by_cases hs : solved = []
  · rw [if_pos hs]
    refine ⟨b2, fun Z => ⟨fun h => ⟨h, ?_⟩, fun h => h.1⟩⟩
    subst hs
    ext i
    exact i.elim0
  · rw [if_neg hs]
    have hcm := b3 (hc.resolve_right hs)
    set Y := bundle solved with hY
    have hYY : Yᴴ * pb.Bm * Y = 1 := gram_one (Bm_posDef g).isHermitian h1 h2
    have hPY : base pb * Y = Y := by
      ext i j
      exact congrFun (h3 (solved.get j) (List.get_mem _ _)) i
    have hYP : Yᴴ * pb.Bm * base pb = Yᴴ * pb.Bm := by
      have := congrArg conjTranspose hPY
      rw [conjTranspose_mul, b1] at this
      rw [Matrix.mul_assoc, ← hcm, ← Matrix.mul_assoc, this]
    have hD : deflator pb solved = 1 - Y * (Yᴴ * pb.Bm) := by unfold deflator; rw [conjTranspose_mul, hBH]
    have hDP : deflator pb solved * base pb = base pb * deflator pb solved := by
      rw [hD, Matrix.sub_mul, Matrix.mul_sub, Matrix.one_mul, Matrix.mul_one, Matrix.mul_assoc Y, hYP, ← Matrix.mul_assoc (base pb), hPY]
    have hDD : deflator pb solved * deflator pb solved = deflator pb solved := by
      rw [hD, Matrix.mul_sub, Matrix.sub_mul, Matrix.sub_mul, Matrix.one_mul, Matrix.mul_one, Matrix.one_mul,
        show Y * (Yᴴ * pb.Bm) * (Y * (Yᴴ * pb.Bm)) = Y * (Yᴴ * pb.Bm * Y) * (Yᴴ * pb.Bm) by simp only [Matrix.mul_assoc], hYY, Matrix.mul_one, sub_self, sub_zero]
    have hYD : Yᴴ * pb.Bm * deflator pb solved = 0 := by
      rw [hD, Matrix.mul_sub, Matrix.mul_one, ← Matrix.mul_assoc _ Y, hYY, Matrix.one_mul, sub_self]
    refine ⟨?_, fun Z => ⟨fun h => ⟨?_, ?_⟩, fun h => ?_⟩⟩
    · rw [show base pb * deflator pb solved * (base pb * deflator pb solved) = base pb * (deflator pb solved * base pb) * deflator pb solved by
        simp only [Matrix.mul_assoc], hDP, ← Matrix.mul_assoc, b2, Matrix.mul_assoc, hDD]
    · rw [← h, ← Matrix.mul_assoc, ← Matrix.mul_assoc, b2]
    · rw [← h, show Yᴴ * pb.Bm * (base pb * deflator pb solved * Z) = Yᴴ * pb.Bm * base pb * deflator pb solved * Z by simp only [Matrix.mul_assoc], hYP,
        hYD, Matrix.zero_mul]
    · rw [Matrix.mul_assoc, hD, Matrix.sub_mul, Matrix.one_mul, Matrix.mul_assoc Y, h.2, Matrix.mul_zero, sub_zero, h.1]

/-- What one block adds. -/
theorem solveBlock_spec {pb : Problem N} (g : Good pb) {o : Outside N} (ho : OutsideOK o) {ib : ℕ} {solved guess : List (Vec N)} (hg : guess ≠ [])
    (h1 : ∀ x ∈ solved, ip pb.Bm x x = 1) (h2 : solved.Pairwise fun x y => ip pb.Bm x y = 0) (h3 : ∀ x ∈ solved, (base pb).mulVec x = x)
    (hc : CommB pb ∨ solved = []) {r : List (Vec N) × List ℝ} (h : solveBlock pb o ib solved guess = some r) :
    Bands pb.A pb.Bm r.1 r.2 ∧ Uncoupled pb.A r.1 ∧ r.2.Pairwise (· ≤ ·) ∧ r.1.length = guess.length ∧ (∀ x ∈ r.1, (base pb).mulVec x = x) ∧
      ∀ x ∈ solved, ∀ y ∈ r.1, ip pb.Bm x y = 0 := by
  unfold solveBlock at h
  rw [Option.map_eq_some_iff] at h
  obtain ⟨s, hs, rfl⟩ := h
  obtain ⟨c1, c2⟩ := chain_spec g h1 h2 h3 hc
  obtain ⟨r1, r2⟩ := solveBundle_spec g ho c1 (List.length_pos_iff.2 hg) hs
  obtain ⟨d1, d2⟩ := (c2 s.1).1 r2
  obtain ⟨e1, e2⟩ := bands_of_ritz r1
  refine ⟨e1, e2, ?_, columns_length _, fun x hx => ?_, fun x hx y hy => ?_⟩
  · simp only
    rw [List.pairwise_ofFn]
    exact fun i j hij => r1.sorted i j hij.le
  · obtain ⟨j, rfl⟩ := mem_columns.1 hx
    funext n
    exact congrFun (congrFun d1 n) j
  · obtain ⟨j, rfl⟩ := mem_columns.1 hy
    obtain ⟨i, rfl⟩ := List.mem_iff_get.1 hx
    have := congrFun (congrFun d2 i) j
    rw [Matrix.mul_assoc, Matrix.mul_apply'] at this
    exact this

/-! ## All blocks -/

theorem bands_append {A B : Matrix (Fin N) (Fin N) ℂ} {l l' : List (Vec N)} {v v' : List ℝ} (h : Bands A B l v) (h' : Bands A B l' v')
    (ho : ∀ x ∈ l, ∀ y ∈ l', ip B x y = 0) : Bands A B (l ++ l') (v ++ v') where
  normalised := fun x hx => (List.mem_append.1 hx).elim (h.normalised x) (h'.normalised x)
  orthogonal := List.pairwise_append.2 ⟨h.orthogonal, h'.orthogonal, ho⟩
  quotient := List.rel_append h.quotient h'.quotient

/-- What holds for the bands solved so far, when all blocks so far were full. -/
structure Done (pb : Problem N) (blk : ℕ) (l : List (Vec N)) (v : List ℝ) : Prop where
  bands : Bands pb.A pb.Bm l v
  base : ∀ x ∈ l, (Kpoint.base pb).mulVec x = x
  uncoupled : ∀ i j x y, i < j → i / blk = j / blk → l[i]? = some x → l[j]? = some y → ip pb.A x y = 0
  sorted : ∀ i j x y, i < j → i / blk = j / blk → v[i]? = some x → v[j]? = some y → x ≤ y

theorem block_append {α : Type*} {R : α → α → Prop} {blk k : ℕ} (hblk : 0 < blk) {l l' : List α} (hl : l.length = k * blk)
    (h : ∀ i j x y, i < j → i / blk = j / blk → l[i]? = some x → l[j]? = some y → R x y) (h' : l'.Pairwise R) :
    ∀ i j x y, i < j → i / blk = j / blk → (l ++ l')[i]? = some x → (l ++ l')[j]? = some y → R x y := by
  intro i j x y hij hb hx hy
  by_cases hj : j < l.length
  · rw [List.getElem?_append_left hj] at hy
    rw [List.getElem?_append_left (by omega)] at hx
    exact h i j x y hij hb hx hy
  · by_cases hi : i < l.length
    · exfalso
      have h1 : i / blk < k := (Nat.div_lt_iff_lt_mul hblk).2 (hl ▸ hi)
      have h2 : k ≤ j / blk := (Nat.le_div_iff_mul_le hblk).2 (by omega)
      omega
    · rw [List.getElem?_append_right (by omega)] at hx hy
      obtain ⟨hi', rfl⟩ := List.getElem?_eq_some_iff.1 hx
      obtain ⟨hj', rfl⟩ := List.getElem?_eq_some_iff.1 hy
      exact List.pairwise_iff_getElem.1 h' _ _ hi' hj' (by omega)

theorem solveBlocks_spec {pb : Problem N} (g : Good pb) {o : Outside N} (ho : OutsideOK o) {blk : ℕ} (hblk : 0 < blk) :
    ∀ (n : ℕ) (ib : ℕ) (solved : List (Vec N)) (vals : List ℝ) (rest : List (Vec N)), rest.length = n → Done pb blk solved vals →
      (rest ≠ [] → ∃ k, solved.length = k * blk) → (CommB pb ∨ (solved = [] ∧ rest.length ≤ blk) ∨ rest = []) →
      ∀ r, solveBlocks pb o blk hblk ib solved vals rest = some r →
      Done pb blk r.1 r.2 ∧ r.1.length = solved.length + rest.length := by
  intro n
  induction n using Nat.strongRecOn with
  | _ n ih =>
    intro ib solved vals rest hn D hk hc r h
    rw [solveBlocks] at h
    split_ifs at h with hr
    · cases h
      rw [hr]
      exact ⟨D, by simp⟩
    · rw [Option.bind_eq_some_iff] at h
      obtain ⟨s, hs, h⟩ := h
      obtain ⟨k, hk⟩ := hk hr
      have hpos := List.length_pos_iff.2 hr
      have hg : rest.take blk ≠ [] := by
        rw [ne_eq, List.take_eq_nil_iff]
        rintro (h | h)
        · omega
        · exact hr h
      have hc' : CommB pb ∨ solved = [] := hc.imp_right fun h => h.elim (fun h => h.1) (fun h => absurd h hr)
      obtain ⟨s1, s2, s3, s4, s5, s6⟩ := solveBlock_spec g ho hg D.bands.normalised D.bands.orthogonal D.base hc' hs
      have hlen : vals.length = k * blk := by rw [← D.bands.quotient.length_eq, hk]
      have D' : Done pb blk (solved ++ s.1) (vals ++ s.2) :=
        ⟨bands_append D.bands s1 s6, fun x hx => (List.mem_append.1 hx).elim (D.base x) (s5 x), block_append hblk hk D.uncoupled s2,
          block_append hblk hlen D.sorted s3⟩
      have hs4 : s.1.length = min blk rest.length := by rw [s4, List.length_take]
      obtain ⟨r1, r2⟩ := ih _ (by rw [List.length_drop]; omega) (ib + blk) _ _ (rest.drop blk) rfl D' (fun hd => ⟨k + 1, by
          have : blk < rest.length := by
            by_contra hle
            exact hd (List.drop_eq_nil_of_le (by omega))
          rw [List.length_append, hk, hs4, Nat.min_eq_left (by omega), Nat.succ_mul]⟩)
        (hc.elim Or.inl fun h => h.elim (fun h => Or.inr (Or.inr (List.drop_eq_nil_of_le h.2))) (fun h => absurd h hr)) r h
      refine ⟨r1, ?_⟩
      rw [r2, List.length_append, hs4, List.length_drop]
      omega

end Mpb.Kpoint

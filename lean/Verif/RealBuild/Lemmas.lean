import Verif.RealBuild.Spec
import Verif.Invariance.Reverse

/-! # Lemmas for C111: the memory layout of the real transforms -/

namespace Mpb.RealBuild
open Mpb.Maxwell Mpb.Maxwell.Spec Mpb.Invariance Mpb.Invariance.Spec Mpb.Field Spec

local notation "conj" => starRingEnd ℂ

/-- Band `b` of an array of reals. -/
def bandR (p : ℕ) (X : ℕ → ℝ) (b : ℕ) : ℕ → ℝ × ℝ := fun G => (X ((G * 2 + 0) * p + b), X ((G * 2 + 1) * p + b))

/-- A pair of reals as complex numbers. -/
def castP (v : ℝ × ℝ) : ℂ × ℂ := ((v.1 : ℂ), (v.2 : ℂ))

/-! ### Sizes -/

theorem od_ld (nx ny nz : ℕ) : otherDims nx ny nz * lastDim nx ny nz = nx * ny * nz := by
  unfold otherDims
  apply Nat.div_mul_cancel
  unfold lastDim
  split_ifs with h1 h2
  · subst h1 h2; simp
  · subst h1; simp
  · exact Dvd.intro_left _ rfl

theorem fftOutputSize_eq (nx ny nz : ℕ) : fftOutputSize nx ny nz = otherDims nx ny nz * (lastDim nx ny nz / 2 + 1) := by
  unfold fftOutputSize lastDimSize
  rw [show otherDims nx ny nz * (2 * (lastDim nx ny nz / 2 + 1)) = 2 * (otherDims nx ny nz * (lastDim nx ny nz / 2 + 1)) by ring,
    Nat.mul_div_cancel_left _ (by omega)]

theorem ld_le (nx ny nz : ℕ) : lastDim nx ny nz ≤ lastDimSize nx ny nz := by unfold lastDimSize; omega

theorem half_lt {ld J : ℕ} (hl : 0 < ld) (hJ : J < ld / 2 + 1) : J < ld := by omega

/-- The place in the whole array of element `q` of the stored half. -/
def full (nx ny nz q : ℕ) : ℕ := q / (lastDim nx ny nz / 2 + 1) * lastDim nx ny nz + q % (lastDim nx ny nz / 2 + 1)

theorem full_lt {nx ny nz q : ℕ} (hl : 0 < lastDim nx ny nz) (hq : q < fftOutputSize nx ny nz) : full nx ny nz q < nx * ny * nz := by
  rw [← od_ld]
  rw [fftOutputSize_eq] at hq
  exact rowMajor_lt (Nat.div_lt_of_lt_mul (by rw [Nat.mul_comm]; exact hq)) (half_lt hl (Nat.mod_lt _ (by omega)))

theorem ld_pos {nx ny nz : ℕ} (h : 0 < nx * ny * nz) : 0 < lastDim nx ny nz := by
  rw [← od_ld] at h
  exact Nat.pos_of_mul_pos_left h

theorem stored_apply {nx ny nz : ℕ} {f h : ℕ → HMat} (hs : HalfStored ⟨nx, ny, nz⟩ f h) {q : ℕ} (hl : 0 < lastDim nx ny nz)
    (hq : q < fftOutputSize nx ny nz) : h q = f (full nx ny nz q) := by
  rw [fftOutputSize_eq] at hq
  obtain ⟨i, hi, j, hj, rfl⟩ := exists_od_ld hq
  have e1 : (i * (lastDim nx ny nz / 2 + 1) + j) / (lastDim nx ny nz / 2 + 1) = i := by
    rw [Nat.add_comm, Nat.add_mul_div_right _ _ (by omega), Nat.div_eq_of_lt hj, Nat.zero_add]
  have e2 : (i * (lastDim nx ny nz / 2 + 1) + j) % (lastDim nx ny nz / 2 + 1) = j := by
    rw [Nat.add_comm, Nat.add_mul_mod_self_right, Nat.mod_eq_of_lt hj]
  unfold full
  rw [e1, e2]
  have hj' := half_lt hl hj
  unfold HalfStored at hs
  dsimp only at hs
  by_cases h1 : nz = 1
  · by_cases h2 : ny = 1
    · have el : lastDim nx ny nz = nx := by unfold lastDim; rw [if_pos h1, if_pos h2]
      have eo : otherDims nx ny nz = 1 := by
        rw [el] at hl
        unfold otherDims; rw [el, h1, h2, mul_one, mul_one]; exact Nat.div_self hl
      rw [if_pos h1, if_pos h2] at hs
      rw [el] at hj hj' ⊢
      obtain rfl : i = 0 := by omega
      simpa using hs j (by omega) hj'
    · have el : lastDim nx ny nz = ny := by unfold lastDim; rw [if_pos h1, if_neg h2]
      rw [if_pos h1, if_neg h2] at hs
      rw [el] at hj hj' hl ⊢
      have eo : otherDims nx ny nz = nx := by
        unfold otherDims; rw [el, h1, mul_one]; exact Nat.mul_div_cancel _ hl
      rw [eo] at hi
      have := hs i hi j (by omega) hj'
      rw [this]
      simp [address, h1]
  · have el : lastDim nx ny nz = nz := by unfold lastDim; rw [if_neg h1]
    rw [if_neg h1] at hs
    rw [el] at hj hj' hl ⊢
    have eo : otherDims nx ny nz = nx * ny := by
      unfold otherDims; rw [el]; exact Nat.mul_div_cancel _ hl
    rw [eo] at hi
    obtain ⟨x, hx, y, hy, rfl⟩ := exists_od_ld hi
    exact hs x hx y hy j (by omega) hj'

/-! ### Opposite points -/

/-- The opposite of a flat index. -/
def opp (nx ny nz r : ℕ) : ℕ := opposite ⟨nx, ny, nz⟩ (r / nz / ny) (r / nz % ny) (r % nz)

theorem opp_lt {nx ny nz r : ℕ} (hr : r < nx * ny * nz) : opp nx ny nz r < nx * ny * nz := by
  obtain ⟨x, hx, y, hy, z, hz, rfl⟩ := index3 hr
  unfold opp opposite address
  dsimp only
  exact rowMajor_lt (rowMajor_lt (Nat.mod_lt _ (by omega)) (Nat.mod_lt _ (by omega))) (Nat.mod_lt _ (by omega))

theorem opp_dvd {n x : ℕ} (hx : x < n) (c : ℤ) : (n : ℤ) ∣ -(((n - x) % n : ℕ) * c) - x * c := by
  rcases Nat.eq_zero_or_pos x with h | h
  · subst h; simp
  · rw [Nat.mod_eq_of_lt (by omega)]
    refine ⟨-c, ?_⟩
    push_cast [Nat.cast_sub hx.le]
    ring

theorem dft_opp {nx ny nz r : ℕ} (hr : r < nx * ny * nz) (G : ℕ) :
    dft (-1) nx ny nz (opp nx ny nz r) G = conj (dft (-1) nx ny nz r G) := by
  obtain ⟨x, hx, y, hy, z, hz, rfl⟩ := index3 hr
  unfold opp
  rw [split_x _ hy hz, split_y _ hy hz, split_z _ hz]
  unfold opposite address
  dsimp only
  rw [dft_neg, dft_neg, split_x _ (Nat.mod_lt _ (by omega)) (Nat.mod_lt _ (by omega)),
    split_y _ (Nat.mod_lt _ (by omega)) (Nat.mod_lt _ (by omega)), split_z _ (Nat.mod_lt _ (by omega)), split_x _ hy hz, split_y _ hy hz,
    split_z _ hz, map_mul, map_mul, chi_conj, chi_conj, chi_conj, neg_neg, neg_neg, neg_neg]
  rw [chi_congr (by omega) (opp_dvd hx _), chi_congr (by omega) (opp_dvd hy _), chi_congr (by omega) (opp_dvd hz _)]

/-! ### The loops -/

theorem writes3 {base : ℕ} {v : V3 ℝ} {c : ℕ} (hc : c < 3) : (base + c, v.get c) ∈ [(base + 0, v.x), (base + 1, v.y), (base + 2, v.z)] := by
  interval_cases c <;> simp [V3.get]

theorem fillFftR_apply (conv : KData → ℝ → ℝ → V3 ℝ) {od ld lds : ℕ} (kpg : ℕ → KData) (p : ℕ) (Hin buf : ℕ → ℝ) (start : ℕ)
    (hld : ld ≤ lds) {num i j b c : ℕ} (hi : i < od) (hj : j < ld) (hb : b < num) (hc : c < 3) :
    fillFftR conv od ld lds kpg p Hin buf start num (3 * ((i * lds + j) * num + b) + c) =
      (conv (kpg (i * ld + j)) (bandR p Hin (start + b) (i * ld + j)).1 (bandR p Hin (start + b) (i * ld + j)).2).get c := by
  unfold fillFftR
  simp only
  rw [foldl_writes]
  have e1 : ∀ i j b, (i * ld + j) * 2 * p + b + start = ((i * ld + j) * 2 + 0) * p + (start + b) := fun i j b => by ring
  have e2 : ∀ i j b, ((i * ld + j) * 2 + 0) * p + (start + b) + p = ((i * ld + j) * 2 + 1) * p + (start + b) := fun i j b => by ring
  apply writes_of_mem
  · rw [List.mem_flatMap]
    refine ⟨(i, j, b), mem_loop3.2 ⟨hi, hj, hb⟩, ?_⟩
    simp only [e1, e2]
    exact writes3 hc
  · intro w hw he
    rw [List.mem_flatMap] at hw
    obtain ⟨⟨i', j', b'⟩, ht, hw⟩ := hw
    rw [mem_loop3] at ht
    simp only [e1, e2] at ht hw
    have hpos : ∃ c' < 3, w.1 = 3 * ((i' * lds + j') * num + b') + c' ∧
        w.2 = (conv (kpg (i' * ld + j')) (bandR p Hin (start + b') (i' * ld + j')).1 (bandR p Hin (start + b') (i' * ld + j')).2).get c' := by
      simp only [List.mem_cons, List.not_mem_nil, or_false] at hw
      rcases hw with rfl | rfl | rfl
      · exact ⟨0, by omega, rfl, rfl⟩
      · exact ⟨1, by omega, rfl, rfl⟩
      · exact ⟨2, by omega, rfl, rfl⟩
    obtain ⟨c', hc', hw1, hw2⟩ := hpos
    have hcc : c' = c ∧ (i' * lds + j') * num + b' = (i * lds + j) * num + b := by omega
    obtain ⟨hij, rfl⟩ := rowMajor_inj ht.2.2 hb hcc.2
    obtain ⟨rfl, rfl⟩ := rowMajor_inj (by omega) (by omega) hij
    obtain ⟨rfl, -⟩ := hcc
    exact hw2

theorem storeBandsR_apply (conv : KData → V3 ℝ → ℝ → ℝ × ℝ) {od ld lds : ℕ} (kpg : ℕ → KData) {p : ℕ} (F Hout : ℕ → ℝ)
    {start num : ℕ} (hp : start + num ≤ p) (scale : ℝ) :
    (∀ i < od, ∀ j < ld, ∀ b < num, bandR p (storeBandsR conv od ld lds kpg p F Hout start num scale) (start + b) (i * ld + j) =
      conv (kpg (i * ld + j)) ⟨F (3 * ((i * lds + j) * num + b) + 0), F (3 * ((i * lds + j) * num + b) + 1),
        F (3 * ((i * lds + j) * num + b) + 2)⟩ scale) ∧
    (∀ a, (∀ G < od * ld, ∀ b < num, ∀ c < 2, a ≠ (G * 2 + c) * p + (start + b)) →
      storeBandsR conv od ld lds kpg p F Hout start num scale a = Hout a) := by
  have e1 : ∀ i j b, (i * ld + j) * 2 * p + b + start = ((i * ld + j) * 2 + 0) * p + (start + b) := fun i j b => by ring
  have e2 : ∀ i j b, ((i * ld + j) * 2 + 0) * p + (start + b) + p = ((i * ld + j) * 2 + 1) * p + (start + b) := fun i j b => by ring
  set V : ℕ → ℕ → ℕ → ℝ × ℝ := fun i j b => conv (kpg (i * ld + j)) ⟨F (3 * ((i * lds + j) * num + b) + 0),
    F (3 * ((i * lds + j) * num + b) + 1), F (3 * ((i * lds + j) * num + b) + 2)⟩ scale with hV
  have hmem : storeBandsR conv od ld lds kpg p F Hout start num scale = writes ((loop3 od ld num).flatMap fun t =>
      [(((t.1 * ld + t.2.1) * 2 + 0) * p + (start + t.2.2), (V t.1 t.2.1 t.2.2).1),
       (((t.1 * ld + t.2.1) * 2 + 1) * p + (start + t.2.2), (V t.1 t.2.1 t.2.2).2)]) Hout := by
    unfold storeBandsR
    simp only [e1, e2]
    rw [foldl_writes]
  constructor
  · intro i hi j hj b hb
    have key : ∀ (c : ℕ), c < 2 → storeBandsR conv od ld lds kpg p F Hout start num scale (((i * ld + j) * 2 + c) * p + (start + b)) =
        if c = 0 then (V i j b).1 else (V i j b).2 := by
      intro c hc
      rw [hmem]
      apply writes_of_mem
      · rw [List.mem_flatMap]
        refine ⟨(i, j, b), mem_loop3.2 ⟨hi, hj, hb⟩, ?_⟩
        interval_cases c <;> simp
      · intro w hw he
        rw [List.mem_flatMap] at hw
        obtain ⟨⟨i', j', b'⟩, ht, hw⟩ := hw
        rw [mem_loop3] at ht
        simp only at ht hw
        have hpos : ∃ c' < 2, w.1 = ((i' * ld + j') * 2 + c') * p + (start + b') ∧
            w.2 = if c' = 0 then (V i' j' b').1 else (V i' j' b').2 := by
          simp only [List.mem_cons, List.not_mem_nil, or_false] at hw
          rcases hw with rfl | rfl
          · exact ⟨0, by omega, rfl, rfl⟩
          · exact ⟨1, by omega, rfl, rfl⟩
        obtain ⟨c', hc', hw1, hw2⟩ := hpos
        rw [hw1] at he
        obtain ⟨h1, h2⟩ := rowMajor_inj (by omega) (by omega) he
        obtain ⟨h3, rfl⟩ := rowMajor_inj hc' hc h1
        obtain ⟨rfl, rfl⟩ := rowMajor_inj ht.2.1 hj h3
        obtain rfl : b' = b := by omega
        exact hw2
    exact Prod.ext (key 0 (by omega)) (key 1 (by omega))
  · intro a ha
    rw [hmem]
    apply writes_of_not_mem
    intro w hw
    rw [List.mem_flatMap] at hw
    obtain ⟨⟨i', j', b'⟩, ht, hw⟩ := hw
    rw [mem_loop3] at ht
    simp only at ht hw
    have hlt : i' * ld + j' < od * ld := rowMajor_lt ht.1 ht.2.1
    simp only [List.mem_cons, List.not_mem_nil, or_false] at hw
    rcases hw with rfl | rfl
    · exact (ha _ hlt b' ht.2.2 0 (by omega)).symm
    · exact (ha _ hlt b' ht.2.2 1 (by omega)).symm

theorem eFromDR_apply {n num : ℕ} (M : ℕ → HMat) (F : ℕ → ℝ) {r b : ℕ} (hr : r < n) (hb : b < num) :
    ∀ c < 3, cplx (eFromDR n num M F) (3 * (r * num + b) + c) =
      ((M r).mulVec ⟨cplx F (3 * (r * num + b) + 0), cplx F (3 * (r * num + b) + 1), cplx F (3 * (r * num + b) + 2)⟩).get c := by
  intro c hc
  have hw : ∀ (ib : ℕ) (v : V3 ℂ) (m : ℕ → ℝ) (a : ℕ), writes [(2 * (ib + 0), v.x.re), (2 * (ib + 0) + 1, v.x.im), (2 * (ib + 1), v.y.re),
      (2 * (ib + 1) + 1, v.y.im), (2 * (ib + 2), v.z.re), (2 * (ib + 2) + 1, v.z.im)] m a =
      if a = 2 * (ib + 2) + 1 then v.z.im else if a = 2 * (ib + 2) then v.z.re else if a = 2 * (ib + 1) + 1 then v.y.im else
      if a = 2 * (ib + 1) then v.y.re else if a = 2 * (ib + 0) + 1 then v.x.im else if a = 2 * (ib + 0) then v.x.re else m a := by
    intro ib v m a
    simp only [writes_cons, writes_nil, Function.update_apply]
  have H := (foldl_local_spec (fun (t : ℕ × ℕ) a => ∃ c < 6, a = 6 * (t.1 * num + t.2) + c)
    (fun mem t => writes [(2 * (3 * (t.1 * num + t.2) + 0), ((M t.1).mulVec ⟨cplx mem (3 * (t.1 * num + t.2) + 0),
        cplx mem (3 * (t.1 * num + t.2) + 1), cplx mem (3 * (t.1 * num + t.2) + 2)⟩).x.re),
      (2 * (3 * (t.1 * num + t.2) + 0) + 1, ((M t.1).mulVec ⟨cplx mem (3 * (t.1 * num + t.2) + 0),
        cplx mem (3 * (t.1 * num + t.2) + 1), cplx mem (3 * (t.1 * num + t.2) + 2)⟩).x.im),
      (2 * (3 * (t.1 * num + t.2) + 1), ((M t.1).mulVec ⟨cplx mem (3 * (t.1 * num + t.2) + 0),
        cplx mem (3 * (t.1 * num + t.2) + 1), cplx mem (3 * (t.1 * num + t.2) + 2)⟩).y.re),
      (2 * (3 * (t.1 * num + t.2) + 1) + 1, ((M t.1).mulVec ⟨cplx mem (3 * (t.1 * num + t.2) + 0),
        cplx mem (3 * (t.1 * num + t.2) + 1), cplx mem (3 * (t.1 * num + t.2) + 2)⟩).y.im),
      (2 * (3 * (t.1 * num + t.2) + 2), ((M t.1).mulVec ⟨cplx mem (3 * (t.1 * num + t.2) + 0),
        cplx mem (3 * (t.1 * num + t.2) + 1), cplx mem (3 * (t.1 * num + t.2) + 2)⟩).z.re),
      (2 * (3 * (t.1 * num + t.2) + 2) + 1, ((M t.1).mulVec ⟨cplx mem (3 * (t.1 * num + t.2) + 0),
        cplx mem (3 * (t.1 * num + t.2) + 1), cplx mem (3 * (t.1 * num + t.2) + 2)⟩).z.im)] mem) (loop2 n num) F ?_ ?_ ?_).1 (r, b)
      (mem_loop2.2 ⟨hr, hb⟩)
  · have e0 := H (6 * (r * num + b) + 2 * c) ⟨2 * c, by omega, rfl⟩
    have e1 := H (6 * (r * num + b) + (2 * c + 1)) ⟨2 * c + 1, by omega, rfl⟩
    have f0 : 2 * (3 * (r * num + b) + c) = 6 * (r * num + b) + 2 * c := by ring
    have f1 : 2 * (3 * (r * num + b) + c) + 1 = 6 * (r * num + b) + (2 * c + 1) := by ring
    have g : cplx (eFromDR n num M F) (3 * (r * num + b) + c) = ⟨eFromDR n num M F (6 * (r * num + b) + 2 * c),
        eFromDR n num M F (6 * (r * num + b) + (2 * c + 1))⟩ := by rw [cplx, f1, f0]
    rw [g]
    unfold eFromDR
    refine (congrArg₂ Complex.mk e0 e1).trans ?_
    simp only [hw]
    generalize r * num + b = m
    interval_cases c
    · rw [if_neg (by omega), if_neg (by omega), if_neg (by omega), if_neg (by omega), if_neg (by omega), if_pos (by omega),
        if_neg (by omega), if_neg (by omega), if_neg (by omega), if_neg (by omega), if_pos (by omega)]
      rfl
    · rw [if_neg (by omega), if_neg (by omega), if_neg (by omega), if_pos (by omega),
        if_neg (by omega), if_neg (by omega), if_pos (by omega)]
      rfl
    · rw [if_neg (by omega), if_pos (by omega), if_pos (by omega)]
      rfl
  · intro t _ m a ha
    simp only [hw]
    generalize t.1 * num + t.2 = k at *
    have : ∀ c < 6, a ≠ 6 * k + c := fun c hc h => ha ⟨c, hc, h⟩
    have h0 := this 0 (by omega); have h1 := this 1 (by omega); have h2 := this 2 (by omega); have h3 := this 3 (by omega)
    have h4 := this 4 (by omega); have h5 := this 5 (by omega)
    rw [if_neg (by omega), if_neg (by omega), if_neg (by omega), if_neg (by omega), if_neg (by omega), if_neg (by omega)]
  · intro t _ m m' hm a ha
    have hc' : ∀ c < 3, cplx m (3 * (t.1 * num + t.2) + c) = cplx m' (3 * (t.1 * num + t.2) + c) := by
      intro c hc
      unfold cplx
      rw [hm _ ⟨2 * c, by omega, by ring⟩, hm _ ⟨2 * c + 1, by omega, by ring⟩]
    rw [hc' 0 (by omega), hc' 1 (by omega), hc' 2 (by omega)]
    simp only [hw]
    rw [hm a ha]
  · refine (nodup_loop2 n num).imp_of_mem (fun {t t'} ht ht' hne a => ?_)
    rintro ⟨c1, h1, rfl⟩ ⟨c2, h2, e⟩
    have e2 : t.1 * num + t.2 = t'.1 * num + t'.2 := by omega
    obtain ⟨a1, a2⟩ := rowMajor_inj (mem_loop2.1 ht).2 (mem_loop2.1 ht').2 e2
    exact hne (Prod.ext a1 a2)

/-! ### The transforms -/

theorem r2c_apply {nx ny nz num : ℕ} (F : ℕ → ℝ) {q b c : ℕ} (hq : q < fftOutputSize nx ny nz) (hb : b < num) (hc : c < 3) :
    cplx (fftR2C nx ny nz (num * 3) F) (3 * (q * num + b) + c) = ∑ G ∈ Finset.range (nx * ny * nz), dft (-1) nx ny nz (full nx ny nz q) G *
      (F (3 * ((G / lastDim nx ny nz * lastDimSize nx ny nz + G % lastDim nx ny nz) * num + b) + c) : ℂ) := by
  have e : 3 * (q * num + b) + c = q * (num * 3) + (b * 3 + c) := by ring
  have hlt : b * 3 + c < num * 3 := by omega
  have hd : (q * (num * 3) + (b * 3 + c)) / (num * 3) = q := by
    rw [Nat.add_comm, Nat.add_mul_div_right _ _ (by omega), Nat.div_eq_of_lt hlt, Nat.zero_add]
  have hm : (q * (num * 3) + (b * 3 + c)) % (num * 3) = b * 3 + c := by
    rw [Nat.add_comm, Nat.add_mul_mod_self_right, Nat.mod_eq_of_lt hlt]
  have hl := rowMajor_lt (n := num * 3) hq hlt
  have es : ∀ G, 3 * ((G / lastDim nx ny nz * lastDimSize nx ny nz + G % lastDim nx ny nz) * num + b) + c =
      (G / lastDim nx ny nz * lastDimSize nx ny nz + G % lastDim nx ny nz) * (num * 3) + (b * 3 + c) := fun G => by ring
  rw [e]
  simp only [es]
  unfold cplx fftR2C
  generalize q * (num * 3) + (b * 3 + c) = A at *
  have d0 : 2 * A / 2 = A := by omega
  have d1 : (2 * A + 1) / 2 = A := by omega
  rw [if_pos (by omega), if_pos (by omega)]
  simp only [d0, d1, hd, hm]
  rw [if_pos (by omega), if_neg (by omega)]
  rfl

theorem c2r_apply {w : Fftw} {nx ny nz num : ℕ} (F : ℕ → ℝ) {i j b c : ℕ} (hi : i < otherDims nx ny nz) (hj : j < lastDim nx ny nz)
    (hb : b < num) (hc : c < 3) :
    fftC2R w nx ny nz (num * 3) F (3 * ((i * lastDimSize nx ny nz + j) * num + b) + c) =
      w.c2r (fun q => cplx F (3 * (q * num + b) + c)) (i * lastDim nx ny nz + j) := by
  have e : 3 * ((i * lastDimSize nx ny nz + j) * num + b) + c = (i * lastDimSize nx ny nz + j) * (num * 3) + (b * 3 + c) := by ring
  have hlt : b * 3 + c < num * 3 := by omega
  have hjs : j < lastDimSize nx ny nz := lt_of_lt_of_le hj (ld_le _ _ _)
  have hd : ((i * lastDimSize nx ny nz + j) * (num * 3) + (b * 3 + c)) / (num * 3) = i * lastDimSize nx ny nz + j := by
    rw [Nat.add_comm, Nat.add_mul_div_right _ _ (by omega), Nat.div_eq_of_lt hlt, Nat.zero_add]
  have hm : ((i * lastDimSize nx ny nz + j) * (num * 3) + (b * 3 + c)) % (num * 3) = b * 3 + c := by
    rw [Nat.add_comm, Nat.add_mul_mod_self_right, Nat.mod_eq_of_lt hlt]
  have hd2 : (i * lastDimSize nx ny nz + j) / lastDimSize nx ny nz = i := by
    rw [Nat.add_comm, Nat.add_mul_div_right _ _ (by omega), Nat.div_eq_of_lt hjs, Nat.zero_add]
  have hm2 : (i * lastDimSize nx ny nz + j) % lastDimSize nx ny nz = j := by
    rw [Nat.add_comm, Nat.add_mul_mod_self_right, Nat.mod_eq_of_lt hjs]
  have hl := rowMajor_lt (n := num * 3) (rowMajor_lt (n := lastDimSize nx ny nz) hi hjs) hlt
  unfold fftC2R
  rw [e]
  simp only [hd, hm, hd2, hm2]
  rw [if_pos ⟨hl, hj⟩]
  congr 1
  funext q
  congr 1
  ring

/-! ### One chunk of bands -/

theorem toC_get {v : V3 ℝ} {c : ℕ} : (((v.get c : ℝ)) : ℂ) = (toC v).get c := by
  unfold V3.get toC V3.map
  match c with
  | 0 => rfl
  | 1 => rfl
  | (n + 2) => rfl

/-- One operator between two blocks of bands: `num` bands from `start` on of one of `p` bands to those from `start'` on of one of `p'`. -/
theorem chainR_general {exR : KData → ℝ → ℝ → V3 ℝ} {coR : KData → V3 ℝ → ℝ → ℝ × ℝ} {ex : KData → ℂ → ℂ → V3 ℂ}
    {co : KData → V3 ℂ → ℝ → ℂ × ℂ} (hex : ∀ k a b, toC (exR k a b) = ex k a b) (hco : ∀ k v s, castP (coR k v s) = co k (toC v) s)
    {w : Fftw} {d : RData} {P : Problem} (hw : IsC2R ⟨P.nx, P.ny, P.nz⟩ w) (hd : Represents d P) {M Mh : ℕ → HMat}
    (hM : HalfStored ⟨P.nx, P.ny, P.nz⟩ M Mh) (hinv : Inverted ⟨P.nx, P.ny, P.nz⟩ M) (s : ℝ) {p p' : ℕ} (Hin buf Hout : ℕ → ℝ) {start start' num : ℕ}
    (hp : start' + num ≤ p') :
    let R := toHR coR w d p' Hout (eFromDR (fftOutputSize d.nx d.ny d.nz) num Mh (fromHR exR d p Hin buf start num)) start' num s
    (∀ G < d.N, ∀ b < num, castP (bandR p' R (start' + b) G) = colOp ex co P.data M s (fun G => castP (bandR p Hin (start + b) G)) G) ∧
    (∀ a, (∀ G < d.N, ∀ b < num, ∀ c < 2, a ≠ (G * 2 + c) * p' + (start' + b)) → R a = Hout a) := by
  obtain ⟨hx, hy, hz, -, hk, -, -⟩ := hd
  obtain ⟨nx, ny, nz, nfb, kpg, epsInv, muInv⟩ := d
  dsimp only at hx hy hz hk
  subst hx hy hz hk
  intro R
  set nx := P.nx with hnx
  set ny := P.ny with hny
  set nz := P.nz with hnz
  set ld := lastDim nx ny nz with hld
  set lds := lastDimSize nx ny nz with hlds
  set od := otherDims nx ny nz with hod
  have hod_ld : od * ld = nx * ny * nz := od_ld nx ny nz
  have hPN : P.data.N = nx * ny * nz := rfl
  have hWf : P.data.Wf = dft (-1) nx ny nz := rfl
  have hWb : P.data.Wb = dft 1 nx ny nz := rfl
  set f := fromHR exR ⟨nx, ny, nz, nfb, P.data.kpg, epsInv, muInv⟩ p Hin buf start num with hf
  set e := eFromDR (fftOutputSize nx ny nz) num Mh f with he
  obtain ⟨h1, h2⟩ := storeBandsR_apply coR (od := od) (ld := ld) (lds := lds) P.data.kpg (fftC2R w nx ny nz (num * 3) e) Hout hp s
  constructor
  swap
  · intro a ha
    exact h2 a (fun G hG => ha G (by show G < nx * ny * nz; omega))
  intro G hG b hb
  have hG' : G < od * ld := by rw [hod_ld]; exact hG
  have hlp : 0 < ld := ld_pos (lt_of_le_of_lt (Nat.zero_le _) hG)
  obtain ⟨i, hi, j, hj, rfl⟩ := exists_od_ld hG'
  set u : ℕ → V3 ℂ := fun G => ex (P.data.kpg G) (castP (bandR p Hin (start + b) G)).1 (castP (bandR p Hin (start + b) G)).2 with hu
  -- forward transform
  have hf1 : ∀ q < fftOutputSize nx ny nz, ∀ c < 3, cplx f (3 * (q * num + b) + c) =
      (transform (dft (-1) nx ny nz) (nx * ny * nz) u (full nx ny nz q)).get c := by
    intro q hq c hc
    refine (r2c_apply _ hq hb hc).trans ?_
    have : ∀ G ∈ Finset.range (nx * ny * nz), dft (-1) nx ny nz (full nx ny nz q) G *
        (fillFftR exR od ld lds P.data.kpg p Hin buf start num (3 * ((G / ld * lds + G % ld) * num + b) + c) : ℂ) =
        dft (-1) nx ny nz (full nx ny nz q) G * (u G).get c := by
      intro G hG
      rw [Finset.mem_range, ← hod_ld] at hG
      have hq1 : G / ld < od := Nat.div_lt_of_lt_mul (by rw [Nat.mul_comm]; exact hG)
      rw [fillFftR_apply exR P.data.kpg p Hin buf start (ld_le nx ny nz) hq1 (Nat.mod_lt _ hlp) hb hc, toC_get, hex, Nat.div_add_mod']
      rfl
    refine (Finset.sum_congr rfl this).trans ?_
    interval_cases c <;> rfl
  -- the field on the whole grid
  set T : ℕ → V3 ℂ := fun r => (M r).mulVec (transform (dft (-1) nx ny nz) (nx * ny * nz) u r) with hT
  have he1 : ∀ q < fftOutputSize nx ny nz, ∀ c < 3, cplx e (3 * (q * num + b) + c) = (T (full nx ny nz q)).get c := by
    intro q hq c hc
    refine (eFromDR_apply Mh f hq hb c hc).trans ?_
    rw [hf1 q hq 0 (by omega), hf1 q hq 1 (by omega), hf1 q hq 2 (by omega), stored_apply hM hlp hq]
    rfl
  -- its values at opposite points are conjugate
  have hur : ∀ G, u G = conjV (u G) := by
    intro G
    rw [hu]
    dsimp only [castP]
    rw [← hex]
    simp [toC, V3.map, conjV]
  have hTo : ∀ r < nx * ny * nz, T (opp nx ny nz r) = conjV (T r) := by
    intro r hr
    have hc := transform_conj (W := dft (-1) nx ny nz) (W' := fun r' j => dft (-1) nx ny nz (opp nx ny nz r') j) (N := nx * ny * nz) (c := 1)
      (u := u) (r := r) (fun j _ => by rw [one_mul]; exact dft_opp hr j)
    have one3 : ∀ v : V3 ℂ, V3.smul 1 v = v := fun v => by ext <;> simp
    rw [one3] at hc
    have hc2 : transform (dft (-1) nx ny nz) (nx * ny * nz) u (opp nx ny nz r) = conjV (transform (dft (-1) nx ny nz) (nx * ny * nz) u r) := by
      rw [← hc, ← show u = fun j => conjV (u j) from funext hur]
      rfl
    obtain ⟨x, hx, y, hy, z, hz, rfl⟩ := index3 hr
    have hcj := hinv x hx y hy z hz
    have ho : opp nx ny nz ((x * ny + y) * nz + z) = opposite ⟨nx, ny, nz⟩ x y z := by
      unfold opp; rw [split_x _ hy hz, split_y _ hy hz, split_z _ hz]
    rw [hT]
    dsimp only
    rw [hc2, ho]
    exact mulVec_conj hcj _
  -- backward transform
  have hg : ∀ c < 3, ((fftC2R w nx ny nz (num * 3) e (3 * ((i * lds + j) * num + b) + c) : ℝ) : ℂ) =
      (transform (dft 1 nx ny nz) (nx * ny * nz) T (i * ld + j)).get c := by
    intro c hc
    rw [c2r_apply e hi hj hb hc]
    have hconj : ∀ v : V3 ℂ, (conjV v).get c = conj (v.get c) := by
      intro v; interval_cases c <;> rfl
    have := hw (fun r => (T r).get c) (fun q => cplx e (3 * (q * num + b) + c)) (by
      intro x hx y hy z hz
      have hr : (x * ny + y) * nz + z < nx * ny * nz := rowMajor_lt (rowMajor_lt hx hy) hz
      have ho : opp nx ny nz ((x * ny + y) * nz + z) = opposite ⟨nx, ny, nz⟩ x y z := by
        unfold opp; rw [split_x _ hy hz, split_y _ hy hz, split_z _ hz]
      have h3 := hTo _ hr
      rw [ho] at h3
      show (T (opposite ⟨nx, ny, nz⟩ x y z)).get c = _
      rw [h3, hconj]
      rfl) (fun q hq => he1 q hq c hc) (i * ld + j) (by show _ < nx * ny * nz; rw [← hod_ld]; exact hG')
    rw [this]
    interval_cases c <;> rfl
  have h3 := h1 i hi j hj b hb
  have h4 : castP (bandR p' R (start' + b) (i * ld + j)) = castP (coR (P.data.kpg (i * ld + j))
      ⟨fftC2R w nx ny nz (num * 3) e (3 * ((i * lds + j) * num + b) + 0), fftC2R w nx ny nz (num * 3) e (3 * ((i * lds + j) * num + b) + 1),
        fftC2R w nx ny nz (num * 3) e (3 * ((i * lds + j) * num + b) + 2)⟩ s) := congrArg castP h3
  rw [h4, hco]
  unfold colOp
  rw [hWf, hWb, hPN]
  have h5 : toC ⟨fftC2R w nx ny nz (num * 3) e (3 * ((i * lds + j) * num + b) + 0),
      fftC2R w nx ny nz (num * 3) e (3 * ((i * lds + j) * num + b) + 1), fftC2R w nx ny nz (num * 3) e (3 * ((i * lds + j) * num + b) + 2)⟩ =
      transform (dft 1 nx ny nz) (nx * ny * nz) T (i * ld + j) := by
    ext
    · exact hg 0 (by omega)
    · exact hg 1 (by omega)
    · exact hg 2 (by omega)
  rw [h5]

theorem chainR_apply {exR : KData → ℝ → ℝ → V3 ℝ} {coR : KData → V3 ℝ → ℝ → ℝ × ℝ} {ex : KData → ℂ → ℂ → V3 ℂ}
    {co : KData → V3 ℂ → ℝ → ℂ × ℂ} (hex : ∀ k a b, toC (exR k a b) = ex k a b) (hco : ∀ k v s, castP (coR k v s) = co k (toC v) s)
    {w : Fftw} {d : RData} {P : Problem} (hw : IsC2R ⟨P.nx, P.ny, P.nz⟩ w) (hd : Represents d P) {M Mh : ℕ → HMat}
    (hM : HalfStored ⟨P.nx, P.ny, P.nz⟩ M Mh) (hinv : Inverted ⟨P.nx, P.ny, P.nz⟩ M) (s : ℝ) {p : ℕ} (Hin buf Hout : ℕ → ℝ) {start num : ℕ}
    (hp : start + num ≤ p) :
    let R := toHR coR w d p Hout (eFromDR (fftOutputSize d.nx d.ny d.nz) num Mh (fromHR exR d p Hin buf start num)) start num s
    (∀ G < d.N, ∀ b < num, castP (bandR p R (start + b) G) = colOp ex co P.data M s (fun G => castP (bandR p Hin (start + b) G)) G) ∧
    (∀ a, (∀ G < d.N, ∀ b < num, ∀ c < 2, a ≠ (G * 2 + c) * p + (start + b)) → R a = Hout a) :=
  chainR_general hex hco hw hd hM hinv s Hin buf Hout hp

/-! ### Conversions -/

theorem t2cR_cast (k : KData) (a b : ℝ) : toC (t2cR k a b) = t2c k a b := by
  ext <;> apply Complex.ext <;> simp [toC, V3.map, t2cR, t2c]

theorem crossT2cR_cast (k : KData) (a b : ℝ) : toC (crossT2cR k a b) = crossT2c k a b := by
  ext <;> apply Complex.ext <;> simp [toC, V3.map, crossT2cR, crossT2c]

theorem c2tR_cast (k : KData) (v : V3 ℝ) (s : ℝ) : castP (c2tR k v s) = c2t k (toC v) s := by
  refine Prod.ext ?_ ?_ <;> apply Complex.ext <;> simp [toC, V3.map, castP, c2tR, c2t]

theorem crossC2tR_cast (k : KData) (v : V3 ℝ) (s : ℝ) : castP (crossC2tR k v s) = crossC2t k (toC v) s := by
  refine Prod.ext ?_ ?_ <;> apply Complex.ext <;> simp [toC, V3.map, castP, crossC2tR, crossC2t]

end Mpb.RealBuild

import Verif.Parity.Props
import Verif.Parity.Flags
import Verif.Maxwell.OperatorProps

/-!
# Property C17: zero-frequency bands at k = 0

At `k = 0` the planewave `G = 0` has the two constant polarisations `m = (0,0,1)` and `n = (0,1,0)` (see `kData`).
-/

namespace Mpb.Parity
open Spec Maxwell Maxwell.Spec

namespace Spec

/-- The constant field with amplitudes `a` (along `m` and `n`): only the planewave `G = 0`. -/
noncomputable def dc (a : ℂ × ℂ) : ℕ → ℂ × ℂ := fun G => if G = 0 then a else 0

/-- A constant field has the requested parities: for each requested mirror it has the requested eigenvalue. -/
def InSector (ny nz : ℕ) (parity : BitVec 32) (x : ℕ → ℂ × ℂ) (N : ℕ) : Prop :=
  (has parity evenZ → ∀ G < N, mirrorZ nz x G = x G) ∧ (has parity oddZ → ∀ G < N, mirrorZ nz x G = -x G) ∧
  (has parity evenY → ∀ G < N, mirrorY ny nz x G = x G) ∧ (has parity oddY → ∀ G < N, mirrorY ny nz x G = -x G)

open Classical in
/-- The constant solutions of the requested parity among the two polarisations. -/
noncomputable def constSolutions (ny nz : ℕ) (parity : BitVec 32) (N : ℕ) : List (ℂ × ℂ) :=
  [((1 : ℂ), (0 : ℂ)), (0, 1)].filter fun a => InSector ny nz parity (dc a) N

end Spec

theorem flip_zero (ny nz : ℕ) : flipZ nz 0 = 0 ∧ flipY ny nz 0 = 0 := by
  simp [flipZ, flipY]

theorem dc_mirror {ny nz : ℕ} (hy : 0 < ny) (hz : 0 < nz) (a : ℂ × ℂ) (G : ℕ) :
    mirrorZ nz (dc a) G = dc (a.1, -a.2) G ∧ mirrorY ny nz (dc a) G = dc (-a.1, a.2) G := by
  have hf : (flipZ nz G = 0 ↔ G = 0) ∧ (flipY ny nz G = 0 ↔ G = 0) := by
    refine ⟨⟨fun h => ?_, fun h => by rw [h]; exact (flip_zero ny nz).1⟩, ⟨fun h => ?_, fun h => by rw [h]; exact (flip_zero ny nz).2⟩⟩
    · rw [← flipZ_flipZ hz G, h]; exact (flip_zero ny nz).1
    · rw [← flipY_flipY hy hz G, h]; exact (flip_zero ny nz).2
  unfold mirrorZ mirrorY dc
  simp only [hf.1, hf.2]
  constructor <;> split <;> simp

theorem inSector_m {ny nz N : ℕ} (hy : 0 < ny) (hz : 0 < nz) (hN : 0 < N) (parity : BitVec 32) :
    InSector ny nz parity (dc (1, 0)) N ↔ ¬ has parity (oddZ ||| evenY) := by
  rw [has_or, not_or]
  unfold InSector
  simp only [fun G => (dc_mirror hy hz (1, 0) G).1, fun G => (dc_mirror hy hz (1, 0) G).2]
  constructor
  · rintro ⟨_, h2, h3, _⟩
    refine ⟨fun h => ?_, fun h => ?_⟩
    · have := h2 h 0 hN
      simp only [dc, if_true, Prod.ext_iff, Prod.fst_neg] at this
      norm_num at this
    · have := h3 h 0 hN
      simp only [dc, if_true, Prod.ext_iff] at this
      norm_num at this
  · rintro ⟨h2, h3⟩
    refine ⟨fun _ G _ => by simp, fun h => absurd h h2, fun h => absurd h h3, fun _ G _ => ?_⟩
    unfold dc; split <;> simp

theorem inSector_n {ny nz N : ℕ} (hy : 0 < ny) (hz : 0 < nz) (hN : 0 < N) (parity : BitVec 32) :
    InSector ny nz parity (dc (0, 1)) N ↔ ¬ has parity (oddY ||| evenZ) := by
  rw [has_or, not_or]
  unfold InSector
  simp only [fun G => (dc_mirror hy hz (0, 1) G).1, fun G => (dc_mirror hy hz (0, 1) G).2]
  constructor
  · rintro ⟨h1, _, _, h4⟩
    refine ⟨fun h => ?_, fun h => ?_⟩
    · have := h4 h 0 hN
      simp only [dc, if_true, Prod.ext_iff, Prod.snd_neg] at this
      norm_num at this
    · have := h1 h 0 hN
      simp only [dc, if_true, Prod.ext_iff] at this
      norm_num at this
  · rintro ⟨h4, h1⟩
    refine ⟨fun h => absurd h h1, fun _ G _ => ?_, fun _ G _ => by simp, fun h => absurd h h4⟩
    unfold dc; split <;> simp

theorem constSolutions_eq {ny nz N : ℕ} (hy : 0 < ny) (hz : 0 < nz) (hN : 0 < N) (parity : BitVec 32) :
    constSolutions ny nz parity N =
      (if mBand parity = 1 then [((1 : ℂ), (0 : ℂ))] else []) ++ (if nBand parity = 1 then [((0 : ℂ), (1 : ℂ))] else []) := by
  unfold constSolutions mBand nBand
  by_cases h1 : has parity (oddZ ||| evenY) <;> by_cases h2 : has parity (oddY ||| evenZ) <;>
    simp [List.filter, inSector_m hy hz hN, inSector_n hy hz hN, h1, h2]

/-- C17 (count).  The number of bands removed from the solve is the number of constant solutions of the requested parity, at
most the number of bands. -/
theorem C17_count (ny nz N : ℕ) (hy : 0 < ny) (hz : 0 < nz) (hN : 0 < N) (parity : BitVec 32) (p : ℕ) :
    numConstBands parity p = min p (constSolutions ny nz parity N).length := by
  rw [constSolutions_eq hy hz hN]
  have hm : mBand parity = 0 ∨ mBand parity = 1 := by unfold mBand; split <;> simp
  have hn : nBand parity = 0 ∨ nBand parity = 1 := by unfold nBand; split <;> simp
  unfold numConstBands
  rcases hm with hm | hm <;> rcases hn with hn | hn <;> simp [hm, hn] <;> (try split) <;> omega

theorem band_ext_addr {p : ℕ} {X : ℕ → ℂ} {b G : ℕ} {v : ℂ × ℂ} (h0 : X ((G * 2 + 0) * p + b) = v.1) (h1 : X ((G * 2 + 1) * p + b) = v.2) :
    band p X b G = v := Prod.ext h0 h1

/-- C17 (bands placed).  For every parity, number of bands `p ≥ 1` and old content: band `j < num` becomes the `j`-th constant
solution of the requested parity, the other bands and all memory beyond the matrix are untouched; a process that does not hold
`G = 0` stores zeros. -/
theorem C17_set (ny nz N : ℕ) (hy : 0 < ny) (hz : 0 < nz) (hN : 0 < N) (parity : BitVec 32) (p : ℕ) (X : ℕ → ℂ) :
    (∀ j < numConstBands parity p, ∀ a, (constSolutions ny nz parity N)[j]? = some a → ∀ G < N,
      band p (setConstBands parity (N * 2) p 0 X) j G = dc a G) ∧
    (∀ j < p, numConstBands parity p ≤ j → ∀ G < N, band p (setConstBands parity (N * 2) p 0 X) j G = band p X j G) ∧
    (∀ nstart, 0 < nstart → ∀ j < numConstBands parity p, ∀ G < N, band p (setConstBands parity (N * 2) p nstart X) j G = 0) ∧
    (∀ nstart a, N * 2 * p ≤ a → setConstBands parity (N * 2) p nstart X a = X a) := by
  have hnum : numConstBands parity p ≤ p := by unfold numConstBands; simp only; split <;> omega
  rcases Nat.eq_zero_or_pos p with hp0 | hp
  · subst hp0
    refine ⟨fun j hj => by omega, fun j hj => by omega, fun ns _ j hj => by omega, fun ns a ha => ?_⟩
    unfold setConstBands; simp
  set num := numConstBands parity p with hnumdef
  set Y := writes ((loop2 (N * 2) num).map fun t => (t.1 * p + t.2, (0 : ℂ))) X with hY
  have Yin : ∀ q < N * 2, ∀ j < num, Y (q * p + j) = 0 := by
    intro q hq j hj
    exact writes_map_apply (addr := fun t : ℕ × ℕ => t.1 * p + t.2) (val := fun _ => (0 : ℂ)) (i := (q, j)) (mem_loop2.2 ⟨hq, hj⟩) (fun _ _ _ => rfl)
  have Yout : ∀ q j, j < p → num ≤ j → Y (q * p + j) = X (q * p + j) := by
    intro q j hj hn
    refine writes_map_other (addr := fun t : ℕ × ℕ => t.1 * p + t.2) (val := fun _ => (0 : ℂ)) (fun t ht e => ?_)
    have ht2 := (mem_loop2.1 ht).2
    have := (rowMajor_inj (by omega) hj e).2
    omega
  have Yfar : ∀ a, N * 2 * p ≤ a → Y a = X a := by
    intro a ha
    refine writes_map_other (addr := fun t : ℕ × ℕ => t.1 * p + t.2) (val := fun _ => (0 : ℂ)) (fun t ht e => ?_)
    obtain ⟨h1, h2⟩ := mem_loop2.1 ht
    have := rowMajor_lt h1 (show t.2 < p by omega)
    omega
  have hm : mBand parity = 0 ∨ mBand parity = 1 := by unfold mBand; split <;> simp
  have hn : nBand parity = 0 ∨ nBand parity = 1 := by unfold nBand; split <;> simp
  have hnv : num = min p (mBand parity + nBand parity) := by
    rw [hnumdef]; unfold numConstBands; simp only; split <;> omega
  -- final memory on the process with G = 0
  have R0 : setConstBands parity (N * 2) p 0 X = (fun Y => if nBand parity ≠ 0 ∧ (mBand parity = 0 ∨ p ≥ 2) then
      writes [(mBand parity, (0 : ℂ)), (p + mBand parity, 1)] Y else Y) (if mBand parity ≠ 0 then writes [(0, (1 : ℂ)), (p, 0)] Y else Y) := by
    unfold setConstBands
    rw [if_neg (by omega)]
    simp only [gt_iff_lt, lt_self_iff_false, if_false, ← hnumdef, ← hY]
  have R1 : ∀ ns, 0 < ns → setConstBands parity (N * 2) p ns X = Y := by
    intro ns hns
    unfold setConstBands
    rw [if_neg (by omega)]
    simp only [← hnumdef, ← hY, gt_iff_lt, hns, if_true]
  have r0 : ∀ q j : ℕ, j < p → (q * p + j = 0 ↔ q = 0 ∧ j = 0) := by
    intro q j hj
    constructor
    · intro h
      have := rowMajor_inj hj hp (show q * p + j = 0 * p + 0 by omega)
      exact this
    · rintro ⟨rfl, rfl⟩; simp
  have rp : ∀ q j m : ℕ, j < p → m < p → (q * p + j = p + m ↔ q = 1 ∧ j = m) := by
    intro q j m hj hm
    constructor
    · intro h
      exact rowMajor_inj hj hm (show q * p + j = 1 * p + m by omega)
    · rintro ⟨rfl, rfl⟩; omega
  have rm : ∀ q j m : ℕ, j < p → m < p → (q * p + j = m ↔ q = 0 ∧ j = m) := by
    intro q j m hj hm
    constructor
    · intro h
      exact rowMajor_inj hj hm (show q * p + j = 0 * p + m by omega)
    · rintro ⟨rfl, rfl⟩; omega
  -- value of the final memory at row q, column j
  have val : ∀ q j, j < p → setConstBands parity (N * 2) p 0 X (q * p + j) =
      if nBand parity = 1 ∧ (mBand parity = 0 ∨ p ≥ 2) ∧ j = mBand parity ∧ q = 1 then 1
      else if nBand parity = 1 ∧ (mBand parity = 0 ∨ p ≥ 2) ∧ j = mBand parity ∧ q = 0 then 0
      else if mBand parity = 1 ∧ j = 0 ∧ q = 1 then 0
      else if mBand parity = 1 ∧ j = 0 ∧ q = 0 then 1 else Y (q * p + j) := by
    intro q j hj
    rw [R0]
    have e0 := r0 q j hj
    have ep := rp q j 0 hj hp
    have hw1 : (if mBand parity ≠ 0 then writes [(0, (1 : ℂ)), (p, 0)] Y else Y) (q * p + j) =
        if mBand parity = 1 ∧ j = 0 ∧ q = 1 then 0 else if mBand parity = 1 ∧ j = 0 ∧ q = 0 then 1 else Y (q * p + j) := by
      rcases hm with hm | hm
      · simp [hm]
      · simp only [hm, ne_eq, one_ne_zero, not_false_eq_true, if_true, true_and, writes, List.foldl_cons, List.foldl_nil, Function.update_apply]
        rw [Nat.add_zero] at ep
        simp only [e0, ep]
        by_cases hj0 : j = 0 <;> simp [hj0]
    rcases hn with hn | hn
    · simp only [hn, ne_eq, not_true_eq_false, false_and, if_false, zero_ne_one]
      exact hw1
    · by_cases hc : mBand parity = 0 ∨ p ≥ 2
      · have hmp : mBand parity < p := by rcases hm with h | h <;> omega
        simp only [hn, hc, ne_eq, one_ne_zero, not_false_eq_true, and_self, if_true, true_and]
        rw [show ∀ Z : ℕ → ℂ, writes [(mBand parity, (0 : ℂ)), (p + mBand parity, 1)] Z (q * p + j) =
            if q * p + j = p + mBand parity then 1 else if q * p + j = mBand parity then 0 else Z (q * p + j) from fun Z => by
          simp [writes, Function.update_apply]]
        rw [hw1]
        simp only [rp q j _ hj hmp, rm q j _ hj hmp]
        simp only [and_comm (a := q = 1), and_comm (a := q = 0)]
      · simp only [hn, hc, ne_eq, one_ne_zero, not_false_eq_true, and_false, if_false, false_and, true_and]
        exact hw1
  refine ⟨fun j hj a ha G hG => ?_, fun j hj hjn G hG => ?_, fun ns hns j hj G hG => ?_, fun ns a ha => ?_⟩
  · rw [constSolutions_eq hy hz hN] at ha
    have hjp : j < p := by omega
    have hj' : j < min p (mBand parity + nBand parity) := by rw [← hnv]; exact hj
    have cases : (mBand parity = 0 ∧ nBand parity = 1 ∧ j = 0 ∧ a = (0, 1)) ∨ (mBand parity = 1 ∧ j = 0 ∧ a = (1, 0)) ∨
        (mBand parity = 1 ∧ nBand parity = 1 ∧ j = 1 ∧ 2 ≤ p ∧ a = (0, 1)) := by
      rcases hm with hm | hm <;> rcases hn with hn | hn <;> rw [hm, hn] at ha hj'
      · omega
      · have : j = 0 := by omega
        subst this; simp at ha; exact Or.inl ⟨hm, hn, rfl, ha.symm⟩
      · have : j = 0 := by omega
        subst this; simp at ha; exact Or.inr (Or.inl ⟨hm, rfl, ha.symm⟩)
      · have : j = 0 ∨ (j = 1 ∧ 2 ≤ p) := by omega
        rcases this with rfl | ⟨rfl, h2⟩
        · simp at ha; exact Or.inr (Or.inl ⟨hm, rfl, ha.symm⟩)
        · simp at ha; exact Or.inr (Or.inr ⟨hm, hn, rfl, h2, ha.symm⟩)
    apply band_ext_addr <;> rw [val _ _ hjp]
    · by_cases hG0 : G = 0
      · subst hG0
        rcases cases with ⟨c1, c2, rfl, rfl⟩ | ⟨c1, rfl, rfl⟩ | ⟨c1, c2, rfl, c4, rfl⟩ <;> simp [dc, *]
      · have h1 : G * 2 + 0 ≠ 1 := by omega
        have h0 : G * 2 + 0 ≠ 0 := by omega
        simp only [h1, h0, and_false, if_false, dc, hG0]
        exact Yin _ (by omega) j hj
    · by_cases hG0 : G = 0
      · subst hG0
        rcases cases with ⟨c1, c2, rfl, rfl⟩ | ⟨c1, rfl, rfl⟩ | ⟨c1, c2, rfl, c4, rfl⟩ <;> simp [dc, *]
      · have h1 : G * 2 + 1 ≠ 1 := by omega
        have h0 : G * 2 + 1 ≠ 0 := by omega
        simp only [h1, h0, and_false, if_false, dc, hG0]
        exact Yin _ (by omega) j hj
  · have key : ∀ q, setConstBands parity (N * 2) p 0 X (q * p + j) = X (q * p + j) := by
      intro q
      rw [val q j hj, Yout q j hj hjn]
      have c1 : ¬ (nBand parity = 1 ∧ (mBand parity = 0 ∨ p ≥ 2) ∧ j = mBand parity ∧ q = 1) := by
        rintro ⟨a1, a2, a3, _⟩; omega
      have c2 : ¬ (nBand parity = 1 ∧ (mBand parity = 0 ∨ p ≥ 2) ∧ j = mBand parity ∧ q = 0) := by
        rintro ⟨a1, a2, a3, _⟩; omega
      have c3 : ¬ (mBand parity = 1 ∧ j = 0 ∧ q = 1) := by rintro ⟨a1, a2, _⟩; omega
      have c4 : ¬ (mBand parity = 1 ∧ j = 0 ∧ q = 0) := by rintro ⟨a1, a2, _⟩; omega
      rw [if_neg c1, if_neg c2, if_neg c3, if_neg c4]
    exact Prod.ext (key _) (key _)
  · rw [R1 ns hns]
    exact Prod.ext (Yin _ (by omega) j hj) (Yin _ (by omega) j hj)
  · rcases Nat.eq_zero_or_pos ns with h | h
    · subst h
      have hq : N * 2 * p ≤ a := ha
      have e : a = a / p * p + a % p := (Nat.div_add_mod' a p).symm
      have hqq : N * 2 ≤ a / p := (Nat.le_div_iff_mul_le hp).2 ha
      rw [e, val _ _ (Nat.mod_lt _ hp), ← e, Yfar a ha]
      have h1 : a / p ≠ 1 := by omega
      have h0 : a / p ≠ 0 := by omega
      simp [h1, h0]
    · rw [R1 ns h]; exact Yfar a ha

/-- C17 (orthonormality and parity).  The constant solutions are orthonormal and have the requested parities. -/
theorem C17_orthonormal (ny nz N : ℕ) (hy : 0 < ny) (hz : 0 < nz) (hN : 0 < N) (parity : BitVec 32) (i j : ℕ) (a b : ℂ × ℂ)
    (ha : (constSolutions ny nz parity N)[i]? = some a) (hb : (constSolutions ny nz parity N)[j]? = some b) :
    inner N (dc a) (dc b) = (if i = j then 1 else 0) ∧ InSector ny nz parity (dc a) N := by
  have hin : inner N (dc a) (dc b) = hermT a b := by
    unfold Spec.inner
    rw [Finset.sum_eq_single_of_mem 0 (Finset.mem_range.2 hN)]
    · simp [dc]
    · intro G _ hG; simp [dc, hG, hermT]
  constructor
  · rw [hin]
    rw [constSolutions_eq hy hz hN] at ha hb
    by_cases h1 : mBand parity = 1 <;> by_cases h2 : nBand parity = 1 <;> simp [h1, h2] at ha hb
    · rcases i with _ | _ | i <;> rcases j with _ | _ | j <;> simp at ha hb <;> subst ha <;> subst hb <;> simp [hermT]
    · rcases i with _ | i <;> rcases j with _ | j <;> simp at ha hb; subst ha; subst hb; simp [hermT]
    · rcases i with _ | i <;> rcases j with _ | j <;> simp at ha hb; subst ha; subst hb; simp [hermT]
  · have := List.mem_of_getElem? ha
    unfold constSolutions at this
    rw [List.mem_filter] at this
    have h := this.2
    classical exact of_decide_eq_true h

/-- C17 (kernel, no permeability).  At `k = 0` (so that the stored `|k+G|` of `G = 0` is zero) every constant field is mapped to
zero by the Maxwell operator: these bands have frequency exactly zero. -/
theorem C17_kernel_partial (d : OpData) (hmu : d.muInv = none) (h0 : (d.kpg 0).kmag = 0) (a : ℂ × ℂ) (G : ℕ) :
    bandMaxwell d (dc a) G = 0 := by
  unfold bandMaxwell
  rw [hmu]
  simp only
  unfold bandOp colOp
  have hz : ∀ G', crossT2c (d.kpg G') (dc a G').1 (dc a G').2 = 0 := by
    intro G'
    by_cases h : G' = 0
    · subst h
      unfold crossT2c
      rw [h0]
      ext <;> simp <;> rfl
    · simp only [dc, h, if_false]
      unfold crossT2c
      ext <;> simp <;> rfl
  have ht : ∀ r, transform d.Wf d.N (fun G => crossT2c (d.kpg G) (dc a G).1 (dc a G).2) r = 0 := by
    intro r
    simp only [hz]
    unfold transform
    ext <;> simp
  simp only [ht]
  have hv : ∀ M : HMat, M.mulVec 0 = 0 := by
    intro M; unfold HMat.mulVec; ext <;> simp <;> apply Complex.ext <;> simp
  simp only [hv]
  have : transform d.Wb d.N (fun _ => (0 : V3 ℂ)) G = 0 := by unfold transform; ext <;> simp
  rw [this]
  unfold crossC2t
  refine Prod.ext ?_ ?_ <;> apply Complex.ext <;> simp

/-- The data stored for `G = 0` at `k = 0` satisfies the hypothesis of `C17_kernel_partial`. -/
example : (kData 0).kmag = 0 := by
  unfold kData
  simp

/-- A crystal with two grid points along x, `eps = 1`, and a permeability that differs at the two points (`mu⁻¹ = 1, 2`), at
`k = 0`: the planewaves are `0` and `-x̂`. -/
noncomputable def wmu : ℕ → HMat := fun r => if r = 0 then ⟨1, 1, 1, 0, 0, 0⟩ else ⟨2, 2, 2, 0, 0, 0⟩

/-- The operator data of the witness. -/
noncomputable def muWitness : OpData where
  od := 1
  ld := 2
  nfb := 1
  kpg := fun i => if i = 0 then kData 0 else kData ⟨-1, 0, 0⟩
  epsInv := fun _ => ⟨1, 1, 1, 0, 0, 0⟩
  muInv := some wmu
  Wf := fun r G => if r = 1 ∧ G = 1 then -1 else 1
  Wb := fun G r => if r = 1 ∧ G = 1 then -1 else 1

theorem kData_zero : kData 0 = ⟨0, ⟨0, 0, 1⟩, ⟨0, 1, 0⟩⟩ := by
  unfold kData; simp

theorem kData_negx : kData ⟨-1, 0, 0⟩ = ⟨1, ⟨0, 0, -1⟩, ⟨0, -1, 0⟩⟩ := by
  unfold kData
  simp [Maxwell.normalize, V3.cross]

theorem wN : muWitness.N = 2 := by simp [OpData.N, muWitness]

/-- The inverse permeability operator of the witness on bands along `n` with real amplitudes `c0, c1`. -/
theorem wMu {x : ℕ → ℂ × ℂ} {c0 c1 : ℝ} (h0 : x 0 = (0, (c0 : ℂ))) (h1 : x 1 = (0, (c1 : ℂ))) :
    bandMu muWitness wmu x 0 = (0, (((3 * c0 + c1) / 2 : ℝ) : ℂ)) ∧ bandMu muWitness wmu x 1 = (0, (((c0 + 3 * c1) / 2 : ℝ) : ℂ)) := by
  unfold bandMu colOp transform
  rw [wN]
  simp only [muWitness, wmu, Finset.sum_range_succ, Finset.sum_range_zero, h0, h1, kData_zero, kData_negx, t2c, c2t, HMat.mulVec]
  constructor <;> refine Prod.ext ?_ ?_ <;> apply Complex.ext <;> norm_num <;> ring

theorem wOp {x : ℕ → ℂ × ℂ} {c0 c1 : ℝ} (h0 : x 0 = (0, (c0 : ℂ))) (h1 : x 1 = (0, (c1 : ℂ))) :
    bandOp muWitness x 0 = (0, ((0 : ℝ) : ℂ)) ∧ bandOp muWitness x 1 = (0, ((c1 : ℝ) : ℂ)) := by
  unfold bandOp colOp transform
  rw [wN]
  simp only [muWitness, Finset.sum_range_succ, Finset.sum_range_zero, h0, h1, kData_zero, kData_negx, crossT2c, crossC2t, HMat.mulVec]
  constructor <;> refine Prod.ext ?_ ?_ <;> apply Complex.ext <;> norm_num <;> ring

/-- C17 is false in a crystal with a position-dependent permeability: the constant band set at `k = 0` is not in the kernel of
the Maxwell operator, although its frequency is reported as zero. -/
theorem C17_kernel_mu_refuted :
    ∃ (d : OpData) (a : ℂ × ℂ), (d.kpg 0).kmag = 0 ∧ a ∈ constSolutions 1 1 0 d.N ∧ bandMaxwell d (dc a) 0 ≠ 0 := by
  refine ⟨muWitness, (0, 1), ?_, ?_, ?_⟩
  · simp [muWitness, kData_zero]
  · rw [constSolutions_eq (by omega) (by omega) (by simp [OpData.N, muWitness])]
    have h1 : mBand 0 = 1 := by decide
    have h2 : nBand 0 = 1 := by decide
    rw [if_pos h1, if_pos h2]; simp
  · have : bandMaxwell muWitness (dc (0, 1)) 0 = (0, 1 / 4) := by
      have e0 : dc (0, 1) 0 = ((0 : ℂ), ((1 : ℝ) : ℂ)) := by simp [dc]
      have e1 : dc (0, 1) 1 = ((0 : ℂ), ((0 : ℝ) : ℂ)) := by simp [dc]; rfl
      obtain ⟨m0, m1⟩ := wMu e0 e1
      obtain ⟨o0, o1⟩ := wOp m0 m1
      have f := (wMu o0 o1).1
      have e : bandMaxwell muWitness (dc (0, 1)) = bandMu muWitness wmu (bandOp muWitness (bandMu muWitness wmu (dc (0, 1)))) := rfl
      rw [e, f]
      refine Prod.ext rfl ?_
      push_cast; norm_num
    rw [this]
    simp

/-- C17 (constraint).  `maxwell_zero_k_constraint` sets the `G = 0` amplitudes of every band to zero and leaves all others: it
is the projection that removes the constant fields. -/
theorem C17_constraint (N p : ℕ) (X : ℕ → ℂ) :
    (∀ j < p, ∀ G < N, band p (zeroKConstraint p 0 X) j G = if G = 0 then 0 else band p X j G) ∧
    (∀ a, 2 * p ≤ a → zeroKConstraint p 0 X a = X a) ∧
    (∀ nstart, 0 < nstart → zeroKConstraint p nstart X = X) := by
  have hR : zeroKConstraint p 0 X = (List.range p).foldl (fun mem j => writes [(j, (0 : ℂ)), (p + j, 0)] mem) X := by
    unfold zeroKConstraint; simp
  obtain ⟨h1, h2⟩ := foldl_const_spec (fun (j : ℕ) a => a = j ∨ a = p + j) (fun _ => (0 : ℂ))
    (fun mem j => writes [(j, (0 : ℂ)), (p + j, 0)] mem) (List.range p) X
    (fun j _ m a h => by
      push Not at h
      simp [writes, Function.update_apply, h.1, h.2])
    (fun j _ m a h => by
      rcases h with rfl | rfl <;> simp [writes, Function.update_apply])
  rw [← hR] at h1 h2
  refine ⟨fun j hj G hG => ?_, fun a ha => h2 a (fun t ht hc => ?_), fun ns hns => ?_⟩
  · by_cases hG0 : G = 0
    · subst hG0
      rw [if_pos rfl]
      exact Prod.ext (h1 _ ⟨j, List.mem_range.2 hj, Or.inl (by simp)⟩) (h1 _ ⟨j, List.mem_range.2 hj, Or.inr (by simp)⟩)
    · rw [if_neg hG0]
      have far : ∀ q, 2 ≤ q → ∀ t ∈ List.range p, ¬ (q * p + j = t ∨ q * p + j = p + t) := by
        intro q hq t ht hc
        rw [List.mem_range] at ht
        have : 2 * p ≤ q * p := Nat.mul_le_mul_right _ hq
        omega
      exact Prod.ext (h2 _ (far _ (by omega))) (h2 _ (far _ (by omega)))
  · rw [List.mem_range] at ht
    omega
  · unfold zeroKConstraint; rw [if_pos hns]

/-- C17 (what the constraint removes).  For a band in the requested parity sector, what the constraint subtracts is a combination
of the constant solutions of that parity, and what remains is orthogonal to all of them. -/
theorem C17_constraint_span (ny nz N : ℕ) (hy : 0 < ny) (hz : 0 < nz) (hN : 0 < N) (parity : BitVec 32) (x : ℕ → ℂ × ℂ)
    (hx : InSector ny nz parity x N) :
    (∀ a ∈ constSolutions ny nz parity N, inner N (dc a) (fun G => if G = 0 then 0 else x G) = 0) ∧
    ∃ c : ℂ × ℂ → ℂ, x 0 = ((constSolutions ny nz parity N).map fun a => (c a * a.1, c a * a.2)).sum := by
  constructor
  · intro a _
    unfold Spec.inner
    refine Finset.sum_eq_zero (fun G _ => ?_)
    by_cases h : G = 0
    · simp [h, hermT]
    · simp [dc, h, hermT]
  · refine ⟨fun a => if a = (1, 0) then (x 0).1 else (x 0).2, ?_⟩
    rw [constSolutions_eq hy hz hN]
    obtain ⟨e1, e2, e3, e4⟩ := hx
    have hf := flip_zero ny nz
    have n1 : ((0 : ℂ), (1 : ℂ)) ≠ (1, 0) := by simp
    have z1 : mBand parity ≠ 1 → (x 0).1 = 0 := by
      intro h
      have h' : has parity (oddZ ||| evenY) := by unfold mBand at h; by_contra hc; simp [hc] at h
      rw [has_or] at h'
      rcases h' with h' | h'
      · have := congrArg Prod.fst (e2 h' 0 hN)
        simp only [mirrorZ, hf.1, Prod.fst_neg] at this
        linear_combination this / 2
      · have := congrArg Prod.fst (e3 h' 0 hN)
        simp only [mirrorY, hf.2] at this
        linear_combination -this / 2
    have z2 : nBand parity ≠ 1 → (x 0).2 = 0 := by
      intro h
      have h' : has parity (oddY ||| evenZ) := by unfold nBand at h; by_contra hc; simp [hc] at h
      rw [has_or] at h'
      rcases h' with h' | h'
      · have := congrArg Prod.snd (e4 h' 0 hN)
        simp only [mirrorY, hf.2, Prod.snd_neg] at this
        linear_combination this / 2
      · have := congrArg Prod.snd (e1 h' 0 hN)
        simp only [mirrorZ, hf.1] at this
        linear_combination -this / 2
    by_cases h1 : mBand parity = 1 <;> by_cases h2 : nBand parity = 1 <;> simp [h1, h2] <;>
      (try exact Prod.ext (by simp [z1, h1]) (by simp [z2, h2]))

/-- Non-vacuity: with even z parity exactly one constant band, along `m`, is placed. -/
example : numConstBands evenZ 4 = 1 ∧ constSolutions 1 1 evenZ 8 = [(1, 0)] := by
  refine ⟨by decide, ?_⟩
  rw [constSolutions_eq (by omega) (by omega) (by omega)]
  have h1 : mBand evenZ = 1 := by decide
  have h2 : nBand evenZ = 0 := by decide
  simp [h1, h2]

end Mpb.Parity

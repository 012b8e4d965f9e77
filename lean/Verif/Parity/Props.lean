import Verif.Parity.Lemmas
import Mathlib.Algebra.BigOperators.Intervals
import Mathlib.Tactic.IntervalCases

/-!
# Property C14: the parity constraint is the orthogonal projection onto the parity sector

`part P s x = (x + s P x)/2` (Spec) is the even (`s = 1`) or odd (`s = -1`) part of `x` under the mirror `P`.
-/

namespace Mpb.Parity
open Spec Maxwell Maxwell.Spec

/-! ### Algebra of mirrors -/

theorem flipZ_lt {m nz G : ℕ} (h : G < m * nz) : flipZ nz G < m * nz := by
  obtain ⟨i, hi, j, hj, rfl⟩ := exists_od_ld h
  rw [flipZ_eq hj]
  exact rowMajor_lt hi (Nat.mod_lt _ (by omega))

theorem neg_mod_invol {n j : ℕ} (hj : j < n) : (n - (n - j) % n) % n = j := by
  rcases Nat.eq_zero_or_pos j with h | h
  · subst h; simp
  · rw [Nat.mod_eq_of_lt (show n - j < n by omega), show n - (n - j) = j by omega, Nat.mod_eq_of_lt hj]

theorem flipZ_flipZ {nz : ℕ} (hz : 0 < nz) (G : ℕ) : flipZ nz (flipZ nz G) = G := by
  have hj : G % nz < nz := Nat.mod_lt _ hz
  have e : G = G / nz * nz + G % nz := (Nat.div_add_mod' G nz).symm
  rw [e, flipZ_eq hj, flipZ_eq (Nat.mod_lt _ hz), neg_mod_invol hj]

theorem flipY_lt {m ny nz G : ℕ} (h : G < m * ny * nz) : flipY ny nz G < m * ny * nz := by
  obtain ⟨ij, hij, k, hk, rfl⟩ := exists_od_ld h
  obtain ⟨i, hi, j, hj, rfl⟩ := exists_od_ld hij
  rw [flipY_eq hj hk]
  exact rowMajor_lt (rowMajor_lt hi (Nat.mod_lt _ (by omega))) hk

theorem flipY_flipY {ny nz : ℕ} (hy : 0 < ny) (hz : 0 < nz) (G : ℕ) : flipY ny nz (flipY ny nz G) = G := by
  have hk : G % nz < nz := Nat.mod_lt _ hz
  have hj : G / nz % ny < ny := Nat.mod_lt _ hy
  have e : G = (G / nz / ny * ny + G / nz % ny) * nz + G % nz := by rw [Nat.div_add_mod', Nat.div_add_mod']
  rw [e, flipY_eq hj hk, flipY_eq (Nat.mod_lt _ hy) hk, neg_mod_invol hj]

theorem flip_comm {ny nz : ℕ} (hy : 0 < ny) (hz : 0 < nz) (G : ℕ) : flipY ny nz (flipZ nz G) = flipZ nz (flipY ny nz G) := by
  have hk : G % nz < nz := Nat.mod_lt _ hz
  have hj : G / nz % ny < ny := Nat.mod_lt _ hy
  have e : G = (G / nz / ny * ny + G / nz % ny) * nz + G % nz := by rw [Nat.div_add_mod', Nat.div_add_mod']
  rw [e, flipZ_eq hk, flipY_eq hj (Nat.mod_lt _ hz), flipY_eq hj hk, flipZ_eq hk]

theorem mirrorZ_mirrorZ {nz : ℕ} (hz : 0 < nz) (x : ℕ → ℂ × ℂ) : mirrorZ nz (mirrorZ nz x) = x := by
  funext G
  simp [mirrorZ, flipZ_flipZ hz]

theorem mirrorY_mirrorY {ny nz : ℕ} (hy : 0 < ny) (hz : 0 < nz) (x : ℕ → ℂ × ℂ) : mirrorY ny nz (mirrorY ny nz x) = x := by
  funext G
  simp [mirrorY, flipY_flipY hy hz]

/-- A mirror: a linear involution of the band vectors that preserves the Hermitian product over `N` planewaves. -/
structure IsMirror (N : ℕ) (P : (ℕ → ℂ × ℂ) → (ℕ → ℂ × ℂ)) : Prop where
  invol : ∀ x, P (P x) = x
  lin : ∀ s t x y, P (add (scale s x) (scale t y)) = add (scale s (P x)) (scale t (P y))
  symm : ∀ x y, inner N (P x) y = inner N x (P y)
  loc : ∀ x y, (∀ G < N, x G = y G) → ∀ G < N, P x G = P y G

theorem inner_flip {N : ℕ} (f : ℕ → ℕ) (hlt : ∀ G < N, f G < N) (hinv : ∀ G, f (f G) = G) (φ : ℕ → ℂ) :
    ∑ G ∈ Finset.range N, φ (f G) = ∑ G ∈ Finset.range N, φ G :=
  Finset.sum_bij' (fun G _ => f G) (fun G _ => f G) (fun G h => Finset.mem_range.2 (hlt G (Finset.mem_range.1 h)))
    (fun G h => Finset.mem_range.2 (hlt G (Finset.mem_range.1 h))) (fun G _ => hinv G) (fun G _ => hinv G) (fun _ _ => rfl)

theorem mirrorZ_isMirror {m nz : ℕ} (hz : 0 < nz) : IsMirror (m * nz) (mirrorZ nz) := by
  refine ⟨mirrorZ_mirrorZ hz, fun s t x y => ?_, fun x y => ?_, fun x y h G hG => ?_⟩
  · funext G
    refine Prod.ext ?_ ?_ <;> simp only [mirrorZ, add, scale, Prod.fst_add, Prod.snd_add] <;> ring
  · unfold Spec.inner
    rw [← inner_flip (flipZ nz) (fun G h => flipZ_lt h) (flipZ_flipZ hz) (fun G => hermT (x G) (mirrorZ nz y G))]
    refine Finset.sum_congr rfl (fun G _ => ?_)
    simp [hermT, mirrorZ, flipZ_flipZ hz]
  · simp only [mirrorZ, h _ (flipZ_lt hG)]

theorem mirrorY_isMirror {m ny nz : ℕ} (hy : 0 < ny) (hz : 0 < nz) : IsMirror (m * ny * nz) (mirrorY ny nz) := by
  refine ⟨mirrorY_mirrorY hy hz, fun s t x y => ?_, fun x y => ?_, fun x y h G hG => ?_⟩
  · funext G
    refine Prod.ext ?_ ?_ <;> simp only [mirrorY, add, scale, Prod.fst_add, Prod.snd_add] <;> ring
  · unfold Spec.inner
    rw [← inner_flip (flipY ny nz) (fun G h => flipY_lt h) (flipY_flipY hy hz) (fun G => hermT (x G) (mirrorY ny nz y G))]
    refine Finset.sum_congr rfl (fun G _ => ?_)
    simp [hermT, mirrorY, flipY_flipY hy hz]
  · simp only [mirrorY, h _ (flipY_lt hG)]

theorem part_eq (P : (ℕ → ℂ × ℂ) → (ℕ → ℂ × ℂ)) (s : ℂ) (x : ℕ → ℂ × ℂ) :
    part P s x = add (scale (1 / 2) x) (scale (1 / 2 * s) (P x)) := by
  funext G
  refine Prod.ext ?_ ?_ <;> simp only [part, add, scale, Prod.fst_add, Prod.snd_add] <;> ring

theorem part_loc {N : ℕ} {P : (ℕ → ℂ × ℂ) → (ℕ → ℂ × ℂ)} (hP : IsMirror N P) (s : ℂ) {x y : ℕ → ℂ × ℂ}
    (h : ∀ G < N, x G = y G) (G : ℕ) (hG : G < N) : part P s x G = part P s y G := by
  simp only [part, scale, add, h G hG, hP.loc x y h G hG]

/-- The parts are eigenvectors of the mirror. -/
theorem mirror_part {N : ℕ} {P : (ℕ → ℂ × ℂ) → (ℕ → ℂ × ℂ)} (hP : IsMirror N P) {s : ℂ} (hs : s * s = 1) (x : ℕ → ℂ × ℂ) :
    P (part P s x) = scale s (part P s x) := by
  rw [part_eq, hP.lin, hP.invol]
  funext G
  refine Prod.ext ?_ ?_
  · simp only [add, scale, Prod.fst_add]
    linear_combination (-(1 / 2) * (P x G).1) * hs
  · simp only [add, scale, Prod.snd_add]
    linear_combination (-(1 / 2) * (P x G).2) * hs

theorem part_sector {P : (ℕ → ℂ × ℂ) → (ℕ → ℂ × ℂ)} {s : ℂ} (hs : s * s = 1) {x : ℕ → ℂ × ℂ} (hx : P x = scale s x) :
    part P s x = x := by
  rw [part_eq, hx]
  funext G
  refine Prod.ext ?_ ?_
  · simp only [add, scale, Prod.fst_add]
    linear_combination (1 / 2 * (x G).1) * hs
  · simp only [add, scale, Prod.snd_add]
    linear_combination (1 / 2 * (x G).2) * hs

theorem part_opposite {P : (ℕ → ℂ × ℂ) → (ℕ → ℂ × ℂ)} {s : ℂ} (hs : s * s = 1) {x : ℕ → ℂ × ℂ} (hx : P x = scale (-s) x) :
    part P s x = fun _ => 0 := by
  rw [part_eq, hx]
  funext G
  refine Prod.ext ?_ ?_
  · simp only [add, scale, Prod.fst_add, Prod.fst_zero]
    linear_combination (-(1 / 2) * (x G).1) * hs
  · simp only [add, scale, Prod.snd_add, Prod.snd_zero]
    linear_combination (-(1 / 2) * (x G).2) * hs

theorem inner_part {N : ℕ} {P : (ℕ → ℂ × ℂ) → (ℕ → ℂ × ℂ)} (hP : IsMirror N P) {s : ℝ} (x y : ℕ → ℂ × ℂ) :
    inner N (part P s x) y = inner N x (part P s y) := by
  have hl : ∀ a b : ℕ → ℂ × ℂ, inner N (part P s a) b = 1 / 2 * (inner N a b + s * inner N (P a) b) := by
    intro a b
    unfold Spec.inner
    rw [Finset.mul_sum, ← Finset.sum_add_distrib, Finset.mul_sum]
    refine Finset.sum_congr rfl (fun G _ => ?_)
    simp only [hermT, part, scale, add, Prod.fst_add, Prod.snd_add, map_mul, map_add, Complex.conj_ofReal]
    have : (starRingEnd ℂ) (1 / 2) = 1 / 2 := by
      rw [map_div₀, map_one, map_ofNat]
    rw [this]; ring
  have hr : ∀ a b : ℕ → ℂ × ℂ, inner N a (part P s b) = 1 / 2 * (inner N a b + s * inner N a (P b)) := by
    intro a b
    unfold Spec.inner
    rw [Finset.mul_sum, ← Finset.sum_add_distrib, Finset.mul_sum]
    refine Finset.sum_congr rfl (fun G _ => ?_)
    simp only [hermT, part, scale, add, Prod.fst_add, Prod.snd_add]
    ring
  rw [hl, hr, hP.symm]

/-! ### The constraints -/

/-- The parity sign requested for an axis. -/
theorem parSign_cases (parity even odd : BitVec 32) :
    parSign parity even odd = (if has parity even then 1 else if has parity odd then -1 else 0) := rfl

/-- C14 (z).  In place, for every grid (any `nx, ny, nz`, including `nz = 1` and odd sizes), any number of bands and any
content: each band is replaced by its even or odd part under the `z` mirror, and nothing beyond the `N*2*p` scalars of the
matrix is written. -/
theorem C14_z (g : Grid) (parity : BitVec 32) (p : ℕ) (X : ℕ → ℂ) :
    (has parity evenZ → ∀ b < p, ∀ G < g.nx * g.ny * g.nz,
      band p (zparityConstraint g parity p X) b G = part (mirrorZ g.nz) 1 (band p X b) G) ∧
    (¬ has parity evenZ → has parity oddZ → ∀ b < p, ∀ G < g.nx * g.ny * g.nz,
      band p (zparityConstraint g parity p X) b G = part (mirrorZ g.nz) (-1) (band p X b) G) ∧
    (¬ has parity evenZ → ¬ has parity oddZ → zparityConstraint g parity p X = X) ∧
    (∀ a, g.nx * g.ny * g.nz * 2 * p ≤ a → zparityConstraint g parity p X a = X a) := by
  by_cases hnz : g.nz > 1
  · obtain ⟨hl, ho⟩ := lastDim_3d hnz
    have key : ∀ s : ℤ, s ≠ 0 → parSign parity evenZ oddZ = s → (∀ b < p, ∀ G < g.nx * g.ny * g.nz,
        band p (zparityConstraint g parity p X) b G = part (mirrorZ g.nz) s (band p X b) G) ∧
        (∀ a, g.nx * g.ny * g.nz * 2 * p ≤ a → zparityConstraint g parity p X a = X a) := by
      intro s hs he
      have := zloop_spec (s : ℝ) (g.nx * g.ny) g.nz p (by omega) X
      unfold zparityConstraint
      simp only [he, hs, if_false, hnz, if_true, hl, ho]
      push_cast at this
      exact this
    by_cases h1 : has parity evenZ
    · have := key 1 (by omega) (by unfold parSign; rw [if_pos h1])
      refine ⟨fun _ => ?_, fun h => absurd h1 h, fun h => absurd h1 h, this.2⟩
      simpa using this.1
    · by_cases h2 : has parity oddZ
      · have := key (-1) (by omega) (by unfold parSign; rw [if_neg h1, if_pos h2])
        refine ⟨fun h => absurd h h1, fun _ _ => ?_, fun _ h => absurd h2 h, this.2⟩
        simpa using this.1
      · have e : zparityConstraint g parity p X = X := by
          unfold zparityConstraint
          simp [parSign, h1, h2]
        exact ⟨fun h => absurd h h1, fun _ h => absurd h h2, fun _ _ => e, fun a _ => by rw [e]⟩
  · have hz1 : ∀ G < g.nx * g.ny * g.nz, flipZ g.nz G = G := by
      intro G hG
      have : g.nz = 1 := by
        rcases Nat.eq_zero_or_pos g.nz with h | h
        · rw [h] at hG; simp at hG
        · omega
      rw [this]; simp [flipZ, Nat.mod_one]
    by_cases h1 : has parity evenZ
    · have e : zparityConstraint g parity p X = writes ((loop2 (g.nx * g.ny * g.nz) p).map fun t => ((t.1 * 2 + 1) * p + t.2, (0 : ℂ))) X := by
        unfold zparityConstraint
        simp [parSign, h1, hnz, dims_mul]
      obtain ⟨q1, q2, q3⟩ := zero_comp (g.nx * g.ny * g.nz) p 1 (by omega) X
      refine ⟨fun _ b hb G hG => ?_, fun h => absurd h1 h, fun h => absurd h1 h, fun a ha => by rw [e]; exact q3 a ha⟩
      rw [part_mirrorZ_apply, hz1 G hG, e]
      refine Prod.ext ?_ ?_
      · simp only [band]
        rw [q2 G 0 (by omega) (by omega) b hb]; ring
      · simp only [band]
        rw [q1 G hG b hb]; ring
    · by_cases h2 : has parity oddZ
      · have e : zparityConstraint g parity p X = writes ((loop2 (g.nx * g.ny * g.nz) p).map fun t => ((t.1 * 2 + 0) * p + t.2, (0 : ℂ))) X := by
          unfold zparityConstraint
          simp [parSign, h1, h2, hnz, dims_mul]
        obtain ⟨q1, q2, q3⟩ := zero_comp (g.nx * g.ny * g.nz) p 0 (by omega) X
        refine ⟨fun h => absurd h h1, fun _ _ b hb G hG => ?_, fun _ h => absurd h2 h, fun a ha => by rw [e]; exact q3 a ha⟩
        rw [part_mirrorZ_apply, hz1 G hG, e]
        refine Prod.ext ?_ ?_
        · simp only [band]
          rw [q1 G hG b hb]; ring
        · simp only [band]
          rw [q2 G 1 (by omega) (by omega) b hb]; ring
      · have e : zparityConstraint g parity p X = X := by
          unfold zparityConstraint
          simp [parSign, h1, h2]
        exact ⟨fun h => absurd h h1, fun _ h => absurd h h2, fun _ _ => e, fun a _ => by rw [e]⟩

/-- C14 (y).  The same for the `y` constraint. -/
theorem C14_y (g : Grid) (hy : 0 < g.ny) (parity : BitVec 32) (p : ℕ) (X : ℕ → ℂ) :
    (has parity evenY → ∀ b < p, ∀ G < g.nx * g.ny * g.nz,
      band p (yparityConstraint g parity p X) b G = part (mirrorY g.ny g.nz) 1 (band p X b) G) ∧
    (¬ has parity evenY → has parity oddY → ∀ b < p, ∀ G < g.nx * g.ny * g.nz,
      band p (yparityConstraint g parity p X) b G = part (mirrorY g.ny g.nz) (-1) (band p X b) G) ∧
    (¬ has parity evenY → ¬ has parity oddY → yparityConstraint g parity p X = X) ∧
    (∀ a, g.nx * g.ny * g.nz * 2 * p ≤ a → yparityConstraint g parity p X a = X a) := by
  have key : ∀ s : ℤ, s ≠ 0 → parSign parity evenY oddY = s → (∀ b < p, ∀ G < g.nx * g.ny * g.nz,
      band p (yparityConstraint g parity p X) b G = part (mirrorY g.ny g.nz) s (band p X b) G) ∧
      (∀ a, g.nx * g.ny * g.nz * 2 * p ≤ a → yparityConstraint g parity p X a = X a) := by
    intro s hs he
    have := yloop_spec (-(s : ℝ)) g.nx g.ny g.nz p X hy
    unfold yparityConstraint
    simp only [he, hs, if_false]
    push_cast at this
    rw [neg_neg] at this
    exact this
  by_cases h1 : has parity evenY
  · have := key 1 (by omega) (by unfold parSign; rw [if_pos h1])
    refine ⟨fun _ => ?_, fun h => absurd h1 h, fun h => absurd h1 h, this.2⟩
    simpa using this.1
  · by_cases h2 : has parity oddY
    · have := key (-1) (by omega) (by unfold parSign; rw [if_neg h1, if_pos h2])
      refine ⟨fun h => absurd h h1, fun _ _ => ?_, fun _ h => absurd h2 h, this.2⟩
      simpa using this.1
    · have e : yparityConstraint g parity p X = X := by
        unfold yparityConstraint
        simp [parSign, h1, h2]
      exact ⟨fun h => absurd h h1, fun _ h => absurd h h2, fun _ _ => e, fun a _ => by rw [e]⟩

/-- C14 (projection algebra).  The even and odd parts under either mirror: the map to a part is idempotent and Hermitian, its
image is the parity sector, it keeps vectors of the sector, annihilates the opposite sector, and the two parts add up to the
input. -/
theorem C14_projection (nx ny nz : ℕ) (hy : 0 < ny) (hz : 0 < nz) (P : (ℕ → ℂ × ℂ) → (ℕ → ℂ × ℂ))
    (hP : P = mirrorZ nz ∨ P = mirrorY ny nz) (s : ℝ) (hs : s = 1 ∨ s = -1) (x y : ℕ → ℂ × ℂ) :
    P (part P s x) = scale s (part P s x) ∧
    part P s (part P s x) = part P s x ∧
    inner (nx * ny * nz) (part P s x) y = inner (nx * ny * nz) x (part P s y) ∧
    (P x = scale s x → part P s x = x) ∧
    (P x = scale (-s) x → part P s x = fun _ => 0) ∧
    add (part P 1 x) (part P (-1) x) = x := by
  have hM : IsMirror (nx * ny * nz) P := by
    rcases hP with rfl | rfl
    · exact mirrorZ_isMirror hz
    · exact mirrorY_isMirror hy hz
  have hss : (s : ℂ) * s = 1 := by rcases hs with rfl | rfl <;> norm_num
  refine ⟨mirror_part hM hss x, part_sector hss (mirror_part hM hss x), inner_part hM x y, fun h => part_sector hss h,
    fun h => part_opposite hss h, ?_⟩
  funext G
  refine Prod.ext ?_ ?_ <;> simp only [part, add, scale, Prod.fst_add, Prod.snd_add] <;> ring

/-- The sign of an axis in the specification: even `+1`, odd `-1`. -/
noncomputable def axisPart (P : (ℕ → ℂ × ℂ) → (ℕ → ℂ × ℂ)) (even odd : Prop) [Decidable even] [Decidable odd] (x : ℕ → ℂ × ℂ) :
    ℕ → ℂ × ℂ := if even then part P 1 x else if odd then part P (-1) x else x

theorem has_or (p a b : BitVec 32) : has p (a ||| b) ↔ has p a ∨ has p b := by
  unfold has
  rw [← not_and_or, not_iff_not]
  have hd : p &&& (a ||| b) = (p &&& a) ||| (p &&& b) := by
    apply BitVec.eq_of_getLsbD_eq
    intro i hi
    simp only [BitVec.getLsbD_and, BitVec.getLsbD_or]
    cases p.getLsbD i <;> simp
  rw [hd, BitVec.or_eq_zero_iff]

/-- C14 (combined).  `maxwell_parity_constraint` applies the requested parts of both axes to each band, is idempotent on the
whole memory, and leaves every band in both requested sectors. -/
theorem C14_combined (g : Grid) (hy : 0 < g.ny) (hz : 0 < g.nz) (parity : BitVec 32) (p : ℕ) (X : ℕ → ℂ) :
    (∀ b < p, ∀ G < g.nx * g.ny * g.nz, band p (parityConstraint g parity p X) b G =
      axisPart (mirrorY g.ny g.nz) (has parity evenY) (has parity oddY)
        (axisPart (mirrorZ g.nz) (has parity evenZ) (has parity oddZ) (band p X b)) G) ∧
    (∀ a, g.nx * g.ny * g.nz * 2 * p ≤ a → parityConstraint g parity p X a = X a) := by
  obtain ⟨z1, z2, z3, z4⟩ := C14_z g parity p X
  have hM := mirrorY_isMirror (m := g.nx) hy hz
  set Z := zparityConstraint g parity p X with hZ
  have ez : (if has parity (evenZ ||| oddZ) then Z else X) = Z := by
    split
    · rfl
    · rename_i h
      rw [has_or, not_or] at h
      exact (z3 h.1 h.2).symm
  obtain ⟨y1, y2, y3, y4⟩ := C14_y g hy parity p Z
  have ey : parityConstraint g parity p X = yparityConstraint g parity p Z := by
    unfold parityConstraint
    simp only
    rw [← hZ, ez]
    split
    · rfl
    · rename_i h
      rw [has_or, not_or] at h
      exact (y3 h.1 h.2).symm
  have zb : ∀ b < p, ∀ G < g.nx * g.ny * g.nz, band p Z b G =
      axisPart (mirrorZ g.nz) (has parity evenZ) (has parity oddZ) (band p X b) G := by
    intro b hb G hG
    unfold axisPart
    split
    · rename_i h; exact z1 h b hb G hG
    · rename_i h
      split
      · rename_i h2; exact z2 h h2 b hb G hG
      · rename_i h2; rw [z3 h h2]
  rw [ey]
  refine ⟨fun b hb G hG => ?_, fun a ha => (y4 a ha).trans (z4 a ha)⟩
  by_cases h : has parity evenY
  · rw [y1 h b hb G hG]
    conv_rhs => unfold axisPart; rw [if_pos h]
    exact part_loc hM _ (zb b hb) G hG
  · by_cases h2 : has parity oddY
    · rw [y2 h h2 b hb G hG]
      conv_rhs => unfold axisPart; rw [if_neg h, if_pos h2]
      exact part_loc hM _ (zb b hb) G hG
    · rw [y3 h h2, zb b hb G hG]
      conv_rhs => unfold axisPart; rw [if_neg h, if_neg h2]
      rfl

/-- Memory equality from equality of all bands. -/
theorem mem_ext {N p : ℕ} {X Y : ℕ → ℂ} (h : ∀ b < p, ∀ G < N, band p X b G = band p Y b G) (h2 : ∀ a, N * 2 * p ≤ a → X a = Y a) :
    X = Y := by
  funext a
  by_cases ha : a < N * 2 * p
  · obtain ⟨q, hq, b, hb, rfl⟩ := exists_od_ld ha
    have e := h b hb (q / 2) (by omega)
    rcases Nat.mod_two_eq_zero_or_one q with hm | hm
    · have hq2 : q = q / 2 * 2 + 0 := by omega
      rw [hq2]; exact congrArg Prod.fst e
    · have hq2 : q = q / 2 * 2 + 1 := by omega
      rw [hq2]; exact congrArg Prod.snd e
  · exact h2 a (by omega)

theorem mirror_comm {ny nz : ℕ} (hy : 0 < ny) (hz : 0 < nz) (x : ℕ → ℂ × ℂ) :
    mirrorZ nz (mirrorY ny nz x) = mirrorY ny nz (mirrorZ nz x) := by
  funext G
  simp [mirrorZ, mirrorY, flip_comm hy hz]

/-- C14 (sectors).  After the constraint every band is an eigenvector of each requested mirror: `P x = x` for even, `P x = -x`
for odd; and running the constraint a second time changes nothing in memory. -/
theorem C14_sectors (g : Grid) (hy : 0 < g.ny) (hz : 0 < g.nz) (parity : BitVec 32) (p : ℕ) (X : ℕ → ℂ) :
    (∀ b < p, ∀ G < g.nx * g.ny * g.nz,
      let x := band p (parityConstraint g parity p X) b
      (has parity evenZ → mirrorZ g.nz x G = x G) ∧ (¬ has parity evenZ → has parity oddZ → mirrorZ g.nz x G = -x G) ∧
      (has parity evenY → mirrorY g.ny g.nz x G = x G) ∧ (¬ has parity evenY → has parity oddY → mirrorY g.ny g.nz x G = -x G)) ∧
    parityConstraint g parity p (parityConstraint g parity p X) = parityConstraint g parity p X := by
  have hMz : IsMirror (g.nx * g.ny * g.nz) (mirrorZ g.nz) := mirrorZ_isMirror hz
  have hMy : IsMirror (g.nx * g.ny * g.nz) (mirrorY g.ny g.nz) := mirrorY_isMirror hy hz
  have one : (1 : ℂ) * 1 = 1 := by ring
  have mone : (-1 : ℂ) * (-1) = 1 := by ring
  have sc1 : ∀ x : ℕ → ℂ × ℂ, scale 1 x = x := fun x => by funext G; simp [scale]
  have scm : ∀ (x : ℕ → ℂ × ℂ) G, scale (-1) x G = -x G := fun x G => by
    refine Prod.ext ?_ ?_ <;> simp [scale]
  -- parts of y preserve eigenvectors of the z mirror
  have hpy : ∀ (s t : ℂ) (x : ℕ → ℂ × ℂ), mirrorZ g.nz x = scale t x → mirrorZ g.nz (part (mirrorY g.ny g.nz) s x) =
      scale t (part (mirrorY g.ny g.nz) s x) := by
    intro s t x hx
    rw [part_eq, hMz.lin, mirror_comm hy hz, hx]
    have : mirrorY g.ny g.nz (scale t x) = scale t (mirrorY g.ny g.nz x) := by
      funext G; refine Prod.ext ?_ ?_ <;> simp [mirrorY, scale]
    rw [this]
    funext G
    refine Prod.ext ?_ ?_ <;> simp only [add, scale, Prod.fst_add, Prod.snd_add] <;> ring
  have sector : ∀ x : ℕ → ℂ × ℂ,
      let w := axisPart (mirrorY g.ny g.nz) (has parity evenY) (has parity oddY)
        (axisPart (mirrorZ g.nz) (has parity evenZ) (has parity oddZ) x)
      (has parity evenZ → mirrorZ g.nz w = scale 1 w) ∧ (¬ has parity evenZ → has parity oddZ → mirrorZ g.nz w = scale (-1) w) ∧
      (has parity evenY → mirrorY g.ny g.nz w = scale 1 w) ∧
      (¬ has parity evenY → has parity oddY → mirrorY g.ny g.nz w = scale (-1) w) := by
    intro x w
    have gen : ∀ t : ℂ, mirrorZ g.nz (axisPart (mirrorZ g.nz) (has parity evenZ) (has parity oddZ) x) =
        scale t (axisPart (mirrorZ g.nz) (has parity evenZ) (has parity oddZ) x) → mirrorZ g.nz w = scale t w := by
      intro t ht
      simp only [w]
      conv_lhs => unfold axisPart
      conv_rhs => unfold axisPart
      split
      · exact hpy _ _ _ ht
      · split
        · exact hpy _ _ _ ht
        · exact ht
    refine ⟨fun h => gen 1 ?_, fun h h2 => gen (-1) ?_, fun h => ?_, fun h h2 => ?_⟩
    · unfold axisPart; rw [if_pos h]; exact mirror_part hMz one x
    · unfold axisPart; rw [if_neg h, if_pos h2]; exact mirror_part hMz mone x
    · have : w = part (mirrorY g.ny g.nz) 1 (axisPart (mirrorZ g.nz) (has parity evenZ) (has parity oddZ) x) := by
        simp only [w]; conv_lhs => unfold axisPart; rw [if_pos h]
        rfl
      rw [this]; exact mirror_part hMy one _
    · have : w = part (mirrorY g.ny g.nz) (-1) (axisPart (mirrorZ g.nz) (has parity evenZ) (has parity oddZ) x) := by
        simp only [w]; conv_lhs => unfold axisPart; rw [if_neg h, if_pos h2]
        rfl
      rw [this]; exact mirror_part hMy mone _
  obtain ⟨c1, c2⟩ := C14_combined g hy hz parity p X
  obtain ⟨d1, d2⟩ := C14_combined g hy hz parity p (parityConstraint g parity p X)
  constructor
  · intro b hb G hG x
    obtain ⟨s1, s2, s3, s4⟩ := sector (band p X b)
    set w := axisPart (mirrorY g.ny g.nz) (has parity evenY) (has parity oddY)
        (axisPart (mirrorZ g.nz) (has parity evenZ) (has parity oddZ) (band p X b)) with hw
    have hx : ∀ G < g.nx * g.ny * g.nz, x G = w G := fun G hG => c1 b hb G hG
    have lz := hMz.loc x w hx G hG
    have ly := hMy.loc x w hx G hG
    rw [lz, ly, hx G hG]
    refine ⟨fun h => by rw [s1 h, sc1], fun h h2 => by rw [s2 h h2, scm], fun h => by rw [s3 h, sc1], fun h h2 => by rw [s4 h h2, scm]⟩
  · refine mem_ext (N := g.nx * g.ny * g.nz) (p := p) (fun b hb G hG => ?_) d2
    rw [d1 b hb G hG, c1 b hb G hG]
    obtain ⟨s1, s2, s3, s4⟩ := sector (band p X b)
    set w := axisPart (mirrorY g.ny g.nz) (has parity evenY) (has parity oddY)
        (axisPart (mirrorZ g.nz) (has parity evenZ) (has parity oddZ) (band p X b)) with hw
    have ww : axisPart (mirrorY g.ny g.nz) (has parity evenY) (has parity oddY)
        (axisPart (mirrorZ g.nz) (has parity evenZ) (has parity oddZ) w) = w := by
      have e1 : axisPart (mirrorZ g.nz) (has parity evenZ) (has parity oddZ) w = w := by
        unfold axisPart
        split
        · rename_i h; exact part_sector one (s1 h)
        · rename_i h
          split
          · rename_i h2; exact part_sector mone (s2 h h2)
          · rfl
      rw [e1]
      conv_lhs => unfold axisPart
      split
      · rename_i h; exact part_sector one (s3 h)
      · rename_i h
        split
        · rename_i h2; exact part_sector mone (s4 h h2)
        · rfl
    have hMl : ∀ (x y : ℕ → ℂ × ℂ), (∀ G < g.nx * g.ny * g.nz, x G = y G) → ∀ G < g.nx * g.ny * g.nz,
        axisPart (mirrorZ g.nz) (has parity evenZ) (has parity oddZ) x G = axisPart (mirrorZ g.nz) (has parity evenZ) (has parity oddZ) y G := by
      intro x y h G hG
      unfold axisPart
      split
      · exact part_loc hMz _ h G hG
      · split
        · exact part_loc hMz _ h G hG
        · exact h G hG
    have hMl2 : ∀ (x y : ℕ → ℂ × ℂ), (∀ G < g.nx * g.ny * g.nz, x G = y G) → ∀ G < g.nx * g.ny * g.nz,
        axisPart (mirrorY g.ny g.nz) (has parity evenY) (has parity oddY) x G = axisPart (mirrorY g.ny g.nz) (has parity evenY) (has parity oddY) y G := by
      intro x y h G hG
      unfold axisPart
      split
      · exact part_loc hMy _ h G hG
      · split
        · exact part_loc hMy _ h G hG
        · exact h G hG
    rw [hMl2 _ _ (hMl _ w (fun G hG => c1 b hb G hG)) G hG, ww]

/-- Non-vacuity: a 3d grid with an odd size, one band: the even projection of `m`-amplitudes `1, 2, 3` along `z` (indices
`0, 1, 2`) is `1, 5/2, 5/2`. -/
example : band 1 (zparityConstraint ⟨1, 1, 3⟩ evenZ 1 (fun a => if a = 0 then 1 else if a = 2 then 2 else if a = 4 then 3 else 0)) 0 1 =
    (5 / 2, 0) := by
  have := (C14_z ⟨1, 1, 3⟩ evenZ 1 (fun a => if a = 0 then 1 else if a = 2 then 2 else if a = 4 then 3 else 0)).1 (by decide) 0 (by omega)
    1 (by norm_num)
  rw [this]
  simp only [part, scale, add, mirrorZ, flipZ, band]
  norm_num

end Mpb.Parity

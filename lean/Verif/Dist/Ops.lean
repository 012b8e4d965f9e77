import Verif.Dist.Lemmas
import Verif.Parity.Props
import Verif.Parity.ZeroK
import Verif.Maxwell.Planewave

/-! # Lemmas for C94: the single steps -/

namespace Mpb.Dist

open Mpb.Maxwell Mpb.Maxwell.Spec Mpb.Parity Mpb.Parity.Spec Mpb.Dist.Spec

variable {P : ℕ}

theorem sameN {d : OpData P} {D : Maxwell.OpData} (h : SameProblem d D) : d.N = D.N := by
  rw [Maxwell.OpData.N, h.points, OpData.N]

theorem operatorStep_apply {d : OpData P} {D : Maxwell.OpData} (h : SameProblem d D) {p : ℕ} {Xin : ℕ → ℂ} {Xins : Fin P → ℕ → ℂ}
    (hX : Pieces d.lx (d.ny * d.nz * (2 * p)) Xin Xins) (buf X : Fin P → ℕ → ℂ) (ch : ℕ × ℕ) (hch : ch.1 + ch.2 ≤ p) :
    (∀ r, ∀ G < d.lx.size r * (d.ny * d.nz), ∀ b < ch.2, band p (operatorStep d p Xins buf X ch r) (ch.1 + b) G =
      bandMaxwell D (band p Xin (ch.1 + b)) (d.lx.start r * (d.ny * d.nz) + G)) ∧
    (∀ r a, (∀ G < d.lx.size r * (d.ny * d.nz), ∀ b < ch.2, ∀ c < 2, a ≠ (G * 2 + c) * p + (ch.1 + b)) →
      operatorStep d p Xins buf X ch r a = X r a) := by
  have hin : ∀ r, ∀ G < d.lx.size r * (d.ny * d.nz), ∀ b < ch.2, band p (Xins r) (ch.1 + b) G =
      (fun b => band p Xin (ch.1 + b)) b (d.lx.start r * (d.ny * d.nz) + G) := fun r G hG b hb => pieces_band.1 hX r G hG (ch.1 + b) (by omega)
  have hmu := h.mu
  unfold operatorStep bandMaxwell
  rw [sameN h]
  revert hmu
  cases hD : D.muInv with
  | none =>
    cases hd : d.muInv with
    | some Ms => intro hmu; exact hmu.elim
    | none =>
      intro _
      exact around_apply crossT2c crossC2t h h.eps (-1 / (D.N : ℝ)) Xins buf X hch hin
  | some M =>
    cases hd : d.muInv with
    | none => intro hmu; exact hmu.elim
    | some Ms =>
      intro hmu
      dsimp only
      have s1 := around_apply t2c c2t h hmu (1 / (D.N : ℝ)) Xins buf X hch hin
      have s2 := around_apply crossT2c crossC2t h h.eps (-1 / (D.N : ℝ)) (around t2c c2t d Ms (1 / (D.N : ℝ)) p Xins buf X ch.1 ch.2) buf
        (around t2c c2t d Ms (1 / (D.N : ℝ)) p Xins buf X ch.1 ch.2) hch s1.1
      set X1 := around t2c c2t d Ms (1 / (D.N : ℝ)) p Xins buf X ch.1 ch.2
      set X2 := around crossT2c crossC2t d d.epsInv (-1 / (D.N : ℝ)) p X1 buf X1 ch.1 ch.2
      have s3 := around_apply t2c c2t h hmu (1 / (D.N : ℝ)) X2 buf X2 hch s2.1
      exact ⟨s3.1, fun r a ha => ((s3.2 r a ha).trans (s2.2 r a ha)).trans (s1.2 r a ha)⟩

/-- From bands to pieces of the result. -/
theorem pieces_of_chunks {d : OpData P} {D : Maxwell.OpData} (h : SameProblem d D) {p : ℕ} {R : ℕ → ℂ} {Rs : Fin P → ℕ → ℂ} {A : ℕ → ℕ → ℂ × ℂ}
    (hR : ∀ b < p, ∀ G < D.N, band p R b G = A b G)
    (hRs : ∀ r, (∀ b < p, ∀ G < d.lx.size r * (d.ny * d.nz), band p (Rs r) b G = A b (d.lx.start r * (d.ny * d.nz) + G))) :
    Pieces d.lx (d.ny * d.nz * (2 * p)) R Rs := by
  rw [pieces_band]
  intro r G hG b hb
  rw [hRs r b hb G hG, hR b hb]
  have h0 : 0 < d.lx.size r := Nat.pos_of_ne_zero fun e => by rw [e] at hG; simp at hG
  have h1 := h.rows.inside r h0
  rw [← sameN h, OpData.N]
  calc d.lx.start r * (d.ny * d.nz) + G < d.lx.start r * (d.ny * d.nz) + d.lx.size r * (d.ny * d.nz) := by omega
    _ = (d.lx.start r + d.lx.size r) * (d.ny * d.nz) := by ring
    _ ≤ d.nx * (d.ny * d.nz) := Nat.mul_le_mul_right _ h1
    _ = _ := by ring

/-! ## Parities -/

theorem flipZ_shift {ny nz : ℕ} (s G : ℕ) : flipZ nz (s * (ny * nz) + G) = s * (ny * nz) + flipZ nz G := by
  unfold flipZ
  rcases Nat.eq_zero_or_pos nz with rfl | hz
  · simp
  · have e : s * (ny * nz) + G = G + s * ny * nz := by ring
    rw [e, Nat.add_mul_div_right _ _ hz, Nat.add_mul_mod_self_right]
    ring

theorem flipY_shift {ny nz : ℕ} (hy : 0 < ny) (hz : 0 < nz) (s G : ℕ) : flipY ny nz (s * (ny * nz) + G) = s * (ny * nz) + flipY ny nz G := by
  unfold flipY
  have e : s * (ny * nz) + G = G + s * ny * nz := by ring
  rw [e, Nat.add_mul_div_right _ _ hz, Nat.add_mul_mod_self_right, Nat.add_mul_div_right _ _ hy, Nat.add_mul_mod_self_right]
  ring

theorem axisPart_shift {f : ℕ → ℕ} {Q : (ℕ → ℂ × ℂ) → (ℕ → ℂ × ℂ)} (φ : ℂ × ℂ → ℂ × ℂ) (hQ : ∀ x G, Q x G = φ (x (f G))) {n o : ℕ}
    (hf : ∀ G < n, f G < n) (hs : ∀ G, f (o + G) = o + f G) (e₁ e₂ : Prop) [Decidable e₁] [Decidable e₂] {x y : ℕ → ℂ × ℂ}
    (hxy : ∀ G < n, y G = x (o + G)) : ∀ G < n, axisPart Q e₁ e₂ y G = axisPart Q e₁ e₂ x (o + G) := by
  intro G hG
  have hp : ∀ s, part Q s y G = part Q s x (o + G) := by
    intro s
    simp only [part, scale, add, hQ, hs, hxy G hG, hxy _ (hf G hG)]
  unfold axisPart
  split
  · exact hp 1
  · split
    · exact hp (-1)
    · exact hxy G hG

/-- The accumulators as sums. -/
theorem zAcc_eq (g : Grid) (hz : 0 < g.nz) (p : ℕ) (X : ℕ → ℂ) (b : ℕ) :
    zAcc g p X b =
      (∑ i ∈ Finset.range (g.nx * g.ny), ∑ j ∈ Finset.range (g.nz / 2 + 1), (if j = mir g.nz j then (1 : ℝ) else 2) *
        (reDot (band p X b (i * g.nz + j)).1 (band p X b (i * g.nz + mir g.nz j)).1 -
         reDot (band p X b (i * g.nz + j)).2 (band p X b (i * g.nz + mir g.nz j)).2),
       ∑ i ∈ Finset.range (g.nx * g.ny), ∑ j ∈ Finset.range (g.nz / 2 + 1), (if j = mir g.nz j then (1 : ℝ) else 2) *
        (reDot (band p X b (i * g.nz + j)).1 (band p X b (i * g.nz + j)).1 +
         reDot (band p X b (i * g.nz + j)).2 (band p X b (i * g.nz + j)).2)) := by
  have hdim : (if g.nz > 1 then g.otherDims else g.otherDims * g.lastDim) = g.nx * g.ny ∧ (if g.nz > 1 then g.lastDim else 1) = g.nz := by
    split
    · rename_i h; exact ⟨(lastDim_3d h).2, (lastDim_3d h).1⟩
    · rename_i h
      have : g.nz = 1 := by omega
      refine ⟨?_, this.symm⟩
      rw [dims_mul, this, Nat.mul_one]
  have wcond : ∀ i j : ℕ, ((i * g.nz + j = i * g.nz + mir g.nz j) ↔ (j = mir g.nz j)) := fun i j => by omega
  unfold zAcc
  simp only [hdim.1, hdim.2]
  rw [foldl_pair_sum (fun t : ℕ × ℕ => (if t.1 * g.nz + t.2 = t.1 * g.nz + mir g.nz t.2 then (1 : ℝ) else 2) *
    ((X ((t.1 * g.nz + t.2) * 2 * p + b)).re * (X ((t.1 * g.nz + mir g.nz t.2) * 2 * p + b)).re +
     (X ((t.1 * g.nz + t.2) * 2 * p + b)).im * (X ((t.1 * g.nz + mir g.nz t.2) * 2 * p + b)).im -
     (X (((t.1 * g.nz + t.2) * 2 + 1) * p + b)).re * (X (((t.1 * g.nz + mir g.nz t.2) * 2 + 1) * p + b)).re -
     (X (((t.1 * g.nz + t.2) * 2 + 1) * p + b)).im * (X (((t.1 * g.nz + mir g.nz t.2) * 2 + 1) * p + b)).im))
    (fun t : ℕ × ℕ => (if t.1 * g.nz + t.2 = t.1 * g.nz + mir g.nz t.2 then (1 : ℝ) else 2) *
    ((X ((t.1 * g.nz + t.2) * 2 * p + b)).re * (X ((t.1 * g.nz + t.2) * 2 * p + b)).re +
     (X ((t.1 * g.nz + t.2) * 2 * p + b)).im * (X ((t.1 * g.nz + t.2) * 2 * p + b)).im +
     (X (((t.1 * g.nz + t.2) * 2 + 1) * p + b)).re * (X (((t.1 * g.nz + t.2) * 2 + 1) * p + b)).re +
     (X (((t.1 * g.nz + t.2) * 2 + 1) * p + b)).im * (X (((t.1 * g.nz + t.2) * 2 + 1) * p + b)).im))]
  simp only [zero_add]
  rw [loop2_sum, loop2_sum]
  refine congrArg₂ Prod.mk ?_ ?_ <;>
  · refine Finset.sum_congr rfl (fun i _ => Finset.sum_congr rfl (fun j _ => ?_))
    simp only [wcond, reDot, band, Nat.add_zero]
    ring

theorem yAcc_eq (g : Grid) (p : ℕ) (X : ℕ → ℂ) (b : ℕ) :
    yAcc g p X b =
      (∑ i ∈ Finset.range g.nx, ∑ j ∈ Finset.range (g.ny / 2 + 1), ∑ k ∈ Finset.range g.nz,
        (if (i * g.ny + j) * g.nz + k = (i * g.ny + mir g.ny j) * g.nz + k then (1 : ℝ) else 2) *
        (reDot (band p X b ((i * g.ny + j) * g.nz + k)).2 (band p X b ((i * g.ny + mir g.ny j) * g.nz + k)).2 -
         reDot (band p X b ((i * g.ny + j) * g.nz + k)).1 (band p X b ((i * g.ny + mir g.ny j) * g.nz + k)).1),
       ∑ i ∈ Finset.range g.nx, ∑ j ∈ Finset.range (g.ny / 2 + 1), ∑ k ∈ Finset.range g.nz,
        (if (i * g.ny + j) * g.nz + k = (i * g.ny + mir g.ny j) * g.nz + k then (1 : ℝ) else 2) *
        (reDot (band p X b ((i * g.ny + j) * g.nz + k)).2 (band p X b ((i * g.ny + j) * g.nz + k)).2 +
         reDot (band p X b ((i * g.ny + j) * g.nz + k)).1 (band p X b ((i * g.ny + j) * g.nz + k)).1)) := by
  unfold yAcc
  simp only
  rw [foldl_pair_sum (fun t : ℕ × ℕ × ℕ => (if (t.1 * g.ny + t.2.1) * g.nz + t.2.2 = (t.1 * g.ny + mir g.ny t.2.1) * g.nz + t.2.2 then (1 : ℝ) else 2) *
    ((X ((((t.1 * g.ny + t.2.1) * g.nz + t.2.2) * 2 + 1) * p + b)).re * (X ((((t.1 * g.ny + mir g.ny t.2.1) * g.nz + t.2.2) * 2 + 1) * p + b)).re +
     (X ((((t.1 * g.ny + t.2.1) * g.nz + t.2.2) * 2 + 1) * p + b)).im * (X ((((t.1 * g.ny + mir g.ny t.2.1) * g.nz + t.2.2) * 2 + 1) * p + b)).im -
     (X (((t.1 * g.ny + t.2.1) * g.nz + t.2.2) * 2 * p + b)).re * (X (((t.1 * g.ny + mir g.ny t.2.1) * g.nz + t.2.2) * 2 * p + b)).re -
     (X (((t.1 * g.ny + t.2.1) * g.nz + t.2.2) * 2 * p + b)).im * (X (((t.1 * g.ny + mir g.ny t.2.1) * g.nz + t.2.2) * 2 * p + b)).im))
    (fun t : ℕ × ℕ × ℕ => (if (t.1 * g.ny + t.2.1) * g.nz + t.2.2 = (t.1 * g.ny + mir g.ny t.2.1) * g.nz + t.2.2 then (1 : ℝ) else 2) *
    ((X ((((t.1 * g.ny + t.2.1) * g.nz + t.2.2) * 2 + 1) * p + b)).re * (X ((((t.1 * g.ny + t.2.1) * g.nz + t.2.2) * 2 + 1) * p + b)).re +
     (X ((((t.1 * g.ny + t.2.1) * g.nz + t.2.2) * 2 + 1) * p + b)).im * (X ((((t.1 * g.ny + t.2.1) * g.nz + t.2.2) * 2 + 1) * p + b)).im +
     (X (((t.1 * g.ny + t.2.1) * g.nz + t.2.2) * 2 * p + b)).re * (X (((t.1 * g.ny + t.2.1) * g.nz + t.2.2) * 2 * p + b)).re +
     (X (((t.1 * g.ny + t.2.1) * g.nz + t.2.2) * 2 * p + b)).im * (X (((t.1 * g.ny + t.2.1) * g.nz + t.2.2) * 2 * p + b)).im))]
  simp only [zero_add]
  rw [loop3_sum, loop3_sum]
  refine congrArg₂ Prod.mk ?_ ?_ <;>
  · refine Finset.sum_congr rfl (fun i _ => Finset.sum_congr rfl (fun j _ => Finset.sum_congr rfl fun k _ => ?_))
    simp only [reDot, band, Nat.add_zero]
    ring

/-! ## k = 0 -/

/-- Where `maxwell_zero_k_set_const_bands` writes a one. -/
def isOne (parity : BitVec 32) (p q j : ℕ) : Prop :=
  (q = 0 ∧ j = 0 ∧ mBand parity ≠ 0) ∨ (q = 1 ∧ j = mBand parity ∧ nBand parity ≠ 0 ∧ (mBand parity = 0 ∨ p ≥ 2))

open Classical in
theorem const_aux {m nb p num : ℕ} (Y X : ℕ → ℂ) {q j : ℕ} (hj : j < p) (hm : m = 0 ∨ m = 1) (hnb : nb = 0 ∨ nb = 1)
    (hnum : num = if m + nb > p then p else m + nb) (hv : Y (q * p + j) = if j < num then 0 else X (q * p + j)) :
    (let Z := if m ≠ 0 then writes [(0, (1 : ℂ)), (p, 0)] Y else Y
     if nb ≠ 0 ∧ (m = 0 ∨ p ≥ 2) then writes [(m, (0 : ℂ)), (p + m, 1)] Z else Z) (q * p + j) =
      if j < num then (if (q = 0 ∧ j = 0 ∧ m ≠ 0) ∨ (q = 1 ∧ j = m ∧ nb ≠ 0 ∧ (m = 0 ∨ p ≥ 2)) then 1 else 0) else X (q * p + j) := by
  have hp : 0 < p := by omega
  have a0 : ∀ c, c < p → (q * p + j = c ↔ q = 0 ∧ j = c) := by
    intro c hc
    constructor
    · intro e
      exact rowMajor_inj (n := p) (q' := 0) hj hc (by rw [e]; ring)
    · rintro ⟨rfl, rfl⟩; ring
  have a1 : ∀ c, c < p → (q * p + j = p + c ↔ q = 1 ∧ j = c) := by
    intro c hc
    constructor
    · intro e
      exact rowMajor_inj (n := p) (q' := 1) hj hc (by rw [e]; ring)
    · rintro ⟨rfl, rfl⟩; ring
  have b0 := a0 0 hp
  have b1 : q * p + j = p ↔ q = 1 ∧ j = 0 := a1 0 hp
  have f0 : 1 < p → (q * p + j = 1 ↔ q = 0 ∧ j = 1) := a0 1
  have f1 : 1 < p → (q * p + j = p + 1 ↔ q = 1 ∧ j = 1) := a1 1
  have hq3 : q = 0 ∨ q = 1 ∨ (q ≠ 0 ∧ q ≠ 1) := by omega
  clear a0 a1
  generalize q * p + j = A at *
  rcases hm with rfl | rfl <;> rcases hnb with rfl | rfl
  · have c0 : num = 0 := by rw [hnum]; split <;> omega
    simp [hv, c0]
  · have c1 : num = 1 := by rw [hnum]; split <;> omega
    by_cases j0 : j = 0
    · subst j0
      rcases hq3 with rfl | rfl | ⟨q0, q1⟩
      · simp [writes, Function.update_apply, hv, c1, b0, b1]
      · simp [writes, Function.update_apply, hv, c1, b0, b1]
      · simp [writes, Function.update_apply, hv, c1, b0, b1, q0, q1]
    · simp [writes, Function.update_apply, hv, c1, b0, b1, j0]
  · have c1 : num = 1 := by rw [hnum]; split <;> omega
    by_cases j0 : j = 0
    · subst j0
      rcases hq3 with rfl | rfl | ⟨q0, q1⟩
      · simp [writes, Function.update_apply, hv, c1, b0, b1]
      · simp [writes, Function.update_apply, hv, c1, b0, b1]
      · simp [writes, Function.update_apply, hv, c1, b0, b1, q0, q1]
    · simp [writes, Function.update_apply, hv, c1, b0, b1, j0]
  · by_cases hp2 : p ≥ 2
    · have c1 : num = 2 := by rw [hnum]; split <;> omega
      have f0 := f0 (by omega)
      have f1 := f1 (by omega)
      by_cases j0 : j = 0
      · subst j0
        rcases hq3 with rfl | rfl | ⟨q0, q1⟩
        · simp [writes, Function.update_apply, hv, c1, b0, b1, f0, f1, hp2]
        · simp [writes, Function.update_apply, hv, c1, b0, b1, f0, f1, hp2]
        · simp [writes, Function.update_apply, hv, c1, b0, b1, f0, f1, hp2, q0, q1]
      · by_cases j1 : j = 1
        · subst j1
          rcases hq3 with rfl | rfl | ⟨q0, q1⟩
          · simp [writes, Function.update_apply, hv, c1, b0, b1, f0, f1, hp2]
          · simp [writes, Function.update_apply, hv, c1, b0, b1, f0, f1, hp2]
          · simp [writes, Function.update_apply, hv, c1, b0, b1, f0, f1, hp2, q0, q1]
        · have : ¬ j < 2 := by omega
          simp [writes, Function.update_apply, hv, c1, b0, b1, f0, f1, j0, j1, this, hp2]
    · have c1 : num = 1 := by rw [hnum]; split <;> omega
      have j0 : j = 0 := by omega
      subst j0
      rcases hq3 with rfl | rfl | ⟨q0, q1⟩
      · simp [writes, Function.update_apply, hv, c1, b0, b1, hp2]
      · simp [writes, Function.update_apply, hv, c1, b0, b1, hp2]
      · simp [writes, Function.update_apply, hv, c1, b0, b1, hp2, q0, q1]

open Classical in
theorem setConstBands_apply (parity : BitVec 32) {n p : ℕ} (ns : ℕ) (X : ℕ → ℂ) {q j : ℕ} (hq : q < n) (hj : j < p) :
    setConstBands parity n p ns X (q * p + j) =
      if j < numConstBands parity p then (if ns = 0 ∧ isOne parity p q j then 1 else 0) else X (q * p + j) := by
  have hp : 0 < p := by omega
  set num := numConstBands parity p with hnum
  have hle : num ≤ p := by rw [hnum]; unfold numConstBands; simp only; split <;> omega
  set Y := writes ((loop2 n num).map fun t => (t.1 * p + t.2, (0 : ℂ))) X with hY
  have hYv : Y (q * p + j) = if j < num then 0 else X (q * p + j) := by
    split
    · rename_i h
      exact writes_map_apply (addr := fun t : ℕ × ℕ => t.1 * p + t.2) (val := fun _ => (0 : ℂ)) (i := (q, j)) (mem_loop2.2 ⟨hq, h⟩) (fun _ _ _ => rfl)
    · rename_i h
      refine writes_map_other (addr := fun t : ℕ × ℕ => t.1 * p + t.2) (val := fun _ => (0 : ℂ)) (fun t ht e => ?_)
      have ht2 := (mem_loop2.1 ht).2
      have := (rowMajor_inj (by omega) hj e).2
      omega
  have hm : mBand parity = 0 ∨ mBand parity = 1 := by unfold mBand; split <;> simp
  have hnb : nBand parity = 0 ∨ nBand parity = 1 := by unfold nBand; split <;> simp
  unfold setConstBands
  rw [if_neg (by omega)]
  simp only [← hnum, ← hY]
  by_cases hns : ns > 0
  · rw [if_pos hns, hYv]
    have : ¬ (ns = 0 ∧ isOne parity p q j) := by omega
    rw [if_neg this]
  · have hns0 : ns = 0 := by omega
    rw [if_neg hns]
    simp only [hns0, true_and]
    refine (const_aux Y X hj hm hnb (num := num) rfl hYv).trans ?_
    unfold isOne
    congr

end Mpb.Dist

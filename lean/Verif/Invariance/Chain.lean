import Verif.Invariance.Frame
import Verif.Invariance.Dft

/-! # How the chain of transforms behaves under renumberings, phases and rotations -/

namespace Mpb.Invariance
open Mpb.Maxwell Mpb.Maxwell.Spec Spec

/-- A real matrix applied to a complex vector. -/
noncomputable def turn (Q : Matrix (Fin 3) (Fin 3) ℝ) (v : V3 ℂ) : V3 ℂ :=
  ⟨Q 0 0 * v.x + Q 0 1 * v.y + Q 0 2 * v.z, Q 1 0 * v.x + Q 1 1 * v.y + Q 1 2 * v.z, Q 2 0 * v.x + Q 2 1 * v.y + Q 2 2 * v.z⟩

theorem turn_smul (Q : Matrix (Fin 3) (Fin 3) ℝ) (c : ℂ) (v : V3 ℂ) : turn Q (V3.smul c v) = V3.smul c (turn Q v) := by
  ext <;> simp only [turn, V3.smul] <;> ring

theorem turn_one (v : V3 ℂ) : turn 1 v = v := by
  ext <;> simp [turn]

theorem turn_transform (Q : Matrix (Fin 3) (Fin 3) ℝ) (W : ℕ → ℕ → ℂ) (N : ℕ) (u : ℕ → V3 ℂ) (r : ℕ) :
    transform W N (fun j => turn Q (u j)) r = turn Q (transform W N u r) := by
  ext <;> simp only [transform, turn, Finset.mul_sum, ← Finset.sum_add_distrib] <;> refine Finset.sum_congr rfl fun j _ => ?_ <;> ring

theorem transform_perm {W W' : ℕ → ℕ → ℂ} {N : ℕ} (σ : Equiv.Perm ℕ) (hσ : ∀ G, σ G < N ↔ G < N) (ψ : ℕ → ℂ) {u u' : ℕ → V3 ℂ} {r r' : ℕ}
    (hW : ∀ j < N, W' r' (σ j) * ψ j = W r j) (hu : ∀ j < N, u' (σ j) = V3.smul (ψ j) (u j)) :
    transform W' N u' r' = transform W N u r := by
  have key : ∀ f : V3 ℂ → ℂ, (∀ (c : ℂ) v, f (V3.smul c v) = c * f v) →
      ∑ j ∈ Finset.range N, W' r' j * f (u' j) = ∑ j ∈ Finset.range N, W r j * f (u j) := by
    intro f hf
    rw [← sum_perm σ hσ]
    refine Finset.sum_congr rfl fun j hj => ?_
    rw [Finset.mem_range] at hj
    rw [hu j hj, hf, ← hW j hj]
    ring
  ext
  · exact key V3.x fun _ _ => rfl
  · exact key V3.y fun _ _ => rfl
  · exact key V3.z fun _ _ => rfl

theorem transform_perm' {W W' : ℕ → ℕ → ℂ} {N : ℕ} (σ : Equiv.Perm ℕ) (hσ : ∀ G, σ G < N ↔ G < N) (c : ℂ) {u u' : ℕ → V3 ℂ} {r r' : ℕ}
    (hW : ∀ j < N, W' r' (σ j) = c * W r j) (hu : ∀ j < N, u' (σ j) = u j) :
    transform W' N u' r' = V3.smul c (transform W N u r) := by
  have key : ∀ f : V3 ℂ → ℂ, ∑ j ∈ Finset.range N, W' r' j * f (u' j) = c * ∑ j ∈ Finset.range N, W r j * f (u j) := by
    intro f
    rw [← sum_perm σ hσ, Finset.mul_sum]
    refine Finset.sum_congr rfl fun j hj => ?_
    rw [Finset.mem_range] at hj
    rw [hu j hj, hW j hj]
    ring
  ext
  · exact key V3.x
  · exact key V3.y
  · exact key V3.z

/-- The whole chain (expand, transform, multiply by the tensors, transform back, contract) in the two problems. -/
theorem colOp_frame {ex : KData → ℂ → ℂ → V3 ℂ} {co : KData → V3 ℂ → ℝ → ℂ × ℂ} {d d' : OpData} {M M' : ℕ → HMat} {s : ℝ} (hN : d'.N = d.N)
    (F : Frame d.N) (ρ : Equiv.Perm ℕ) (hρ : ∀ r, ρ r < d.N ↔ r < d.N) (ψ : ℕ → ℂ) (C : Matrix (Fin 3) (Fin 3) ℝ)
    (hf : ∀ r < d.N, ∀ G < d.N, d'.Wf (ρ r) (F.σ G) * ψ G = d.Wf r G)
    (hb : ∀ G < d.N, ∀ r < d.N, d'.Wb (F.σ G) (ρ r) = ψ G * d.Wb G r)
    (hex : ∀ G < d.N, ∀ v : ℂ × ℂ, ex (d'.kpg (F.σ G)) (F.A G v).1 (F.A G v).2 = V3.smul (ψ G) (turn C (ex (d.kpg G) v.1 v.2)))
    (hM : ∀ r < d.N, ∀ u, (M' (ρ r)).mulVec (turn C u) = turn C ((M r).mulVec u))
    (hco : ∀ G < d.N, ∀ a, co (d'.kpg (F.σ G)) (V3.smul (ψ G) (turn C a)) s = F.A G (co (d.kpg G) a s))
    (x : ℕ → ℂ × ℂ) {G : ℕ} (hG : G < d.N) :
    colOp ex co d' M' s (F.act x) (F.σ G) = F.A G (colOp ex co d M s x G) := by
  unfold colOp
  rw [hN]
  have h1 : ∀ r < d.N, transform d'.Wf d.N (fun G => ex (d'.kpg G) (F.act x G).1 (F.act x G).2) (ρ r) =
      turn C (transform d.Wf d.N (fun G => ex (d.kpg G) (x G).1 (x G).2) r) := by
    intro r hr
    rw [← turn_transform]
    refine transform_perm F.σ F.range ψ (hf r hr) fun j hj => ?_
    rw [F.act_apply, hex j hj]
  have h2 : transform d'.Wb d.N (fun r => (M' r).mulVec (transform d'.Wf d.N (fun G => ex (d'.kpg G) (F.act x G).1 (F.act x G).2) r)) (F.σ G) =
      V3.smul (ψ G) (turn C (transform d.Wb d.N (fun r => (M r).mulVec (transform d.Wf d.N (fun G => ex (d.kpg G) (x G).1 (x G).2) r)) G)) := by
    rw [← turn_transform]
    refine transform_perm' ρ hρ (ψ G) (hb G hG) fun r hr => ?_
    rw [h1 r hr, hM r hr]
  rw [h2, hco G hG]

/-! ### Renumberings of the grid -/

/-- The address of a grid point in row-major order. -/
def cell (n : V3 ℕ) (t : ℕ × ℕ × ℕ) : ℕ := (t.1 * n.y + t.2.1) * n.z + t.2.2

/-- The coordinates of the grid point at an address. -/
def coords (n : V3 ℕ) (r : ℕ) : ℕ × ℕ × ℕ := (r / n.z / n.y, r / n.z % n.y, r % n.z)

/-- Coordinates inside the grid. -/
def Box (n : V3 ℕ) (t : ℕ × ℕ × ℕ) : Prop := t.1 < n.x ∧ t.2.1 < n.y ∧ t.2.2 < n.z

theorem coords_cell {n : V3 ℕ} {t : ℕ × ℕ × ℕ} (h : Box n t) : coords n (cell n t) = t := by
  obtain ⟨-, h2, h3⟩ := h
  unfold coords cell
  rw [split_x _ h2 h3, split_y _ h2 h3, split_z _ h3]

theorem cell_lt {n : V3 ℕ} {t : ℕ × ℕ × ℕ} (h : Box n t) : cell n t < n.x * n.y * n.z := rowMajor_lt (rowMajor_lt h.1 h.2.1) h.2.2

theorem box_coords {n : V3 ℕ} {r : ℕ} (h : r < n.x * n.y * n.z) : Box n (coords n r) ∧ cell n (coords n r) = r := by
  obtain ⟨x, hx, y, hy, z, hz, rfl⟩ := index3 h
  have hb : Box n (x, y, z) := ⟨hx, hy, hz⟩
  have := coords_cell hb
  unfold cell at this
  dsimp only at this
  rw [this]
  exact ⟨hb, rfl⟩

/-- A one-to-one map of the points of one grid to those of another with the same number of points. -/
structure GridMap (n n' : V3 ℕ) where
  dir : ℕ × ℕ × ℕ → ℕ × ℕ × ℕ
  inv : ℕ × ℕ × ℕ → ℕ × ℕ × ℕ
  size : n'.x * n'.y * n'.z = n.x * n.y * n.z
  toBox : ∀ t, Box n t → Box n' (dir t)
  invBox : ∀ t, Box n' t → Box n (inv t)
  left : ∀ t, Box n t → inv (dir t) = t
  right : ∀ t, Box n' t → dir (inv t) = t

/-- The map of addresses (the identity outside the grid). -/
def GridMap.perm {n n' : V3 ℕ} (m : GridMap n n') : Equiv.Perm ℕ where
  toFun r := if r < n.x * n.y * n.z then cell n' (m.dir (coords n r)) else r
  invFun r := if r < n.x * n.y * n.z then cell n (m.inv (coords n' r)) else r
  left_inv r := by
    dsimp only
    by_cases h : r < n.x * n.y * n.z
    · obtain ⟨hb, hc⟩ := box_coords h
      rw [if_pos h, if_pos (by rw [← m.size]; exact cell_lt (m.toBox _ hb)), coords_cell (m.toBox _ hb), m.left _ hb, hc]
    · rw [if_neg h, if_neg h]
  right_inv r := by
    dsimp only
    by_cases h : r < n.x * n.y * n.z
    · obtain ⟨hb, hc⟩ := box_coords (n := n') (by rw [m.size]; exact h)
      rw [if_pos h, if_pos (cell_lt (m.invBox _ hb)), coords_cell (m.invBox _ hb), m.right _ hb, hc]
    · rw [if_neg h, if_neg h]

theorem GridMap.perm_apply {n n' : V3 ℕ} (m : GridMap n n') {r : ℕ} (h : r < n.x * n.y * n.z) : m.perm r = cell n' (m.dir (coords n r)) := if_pos h

theorem GridMap.perm_lt {n n' : V3 ℕ} (m : GridMap n n') (r : ℕ) : m.perm r < n.x * n.y * n.z ↔ r < n.x * n.y * n.z := by
  by_cases h : r < n.x * n.y * n.z
  · rw [m.perm_apply h]
    exact iff_of_true (by rw [← m.size]; exact cell_lt (m.toBox _ (box_coords h).1)) h
  · have : m.perm r = r := if_neg h
    rw [this]

/-- The transform matrices in coordinates. -/
theorem dft_pos_cell {n : V3 ℕ} {s t : ℕ × ℕ × ℕ} (hs : Box n s) (ht : Box n t) :
    dft 1 n.x n.y n.z (cell n s) (cell n t) = chi n.x (s.1 * t.1) * chi n.y (s.2.1 * t.2.1) * chi n.z (s.2.2 * t.2.2) := by
  rw [dft_pos]
  unfold cell
  simp only [split_x _ hs.2.1 hs.2.2, split_x _ ht.2.1 ht.2.2, split_y _ hs.2.1 hs.2.2, split_y _ ht.2.1 ht.2.2, split_z _ hs.2.2, split_z _ ht.2.2]

theorem dft_neg_cell {n : V3 ℕ} {s t : ℕ × ℕ × ℕ} (hs : Box n s) (ht : Box n t) :
    dft (-1) n.x n.y n.z (cell n s) (cell n t) = chi n.x (-(s.1 * t.1)) * chi n.y (-(s.2.1 * t.2.1)) * chi n.z (-(s.2.2 * t.2.2)) := by
  rw [dft_neg]
  unfold cell
  simp only [split_x _ hs.2.1 hs.2.2, split_x _ ht.2.1 ht.2.2, split_y _ hs.2.1 hs.2.2, split_y _ ht.2.1 ht.2.2, split_z _ hs.2.2, split_z _ ht.2.2]

end Mpb.Invariance

import Verif.Invariance.Chain
import Verif.Invariance.Homogeneous

/-! # Property C96: moving the origin of the unit cell -/

namespace Mpb.Invariance
open Mpb.Maxwell Mpb.Maxwell.Spec Spec

theorem mod_shift {n t x : ℕ} (hx : x < n) : ((x + t) % n + (n - t % n)) % n = x := by
  have hn : 0 < n := by omega
  have h1 := Nat.mod_lt t hn
  have h2 : ((x + t) % n + (n - t % n)) % n = (x + t + (n - t % n)) % n := by rw [Nat.mod_add_mod]
  rw [h2]
  have h3 := Nat.div_add_mod t n
  have : x + t + (n - t % n) = x + n * (t / n + 1) := by rw [Nat.mul_add, mul_one]; omega
  rw [this, Nat.add_mul_mod_self_left, Nat.mod_eq_of_lt hx]

theorem mod_shift' {n t x : ℕ} (hx : x < n) : ((x + (n - t % n)) % n + t) % n = x := by
  have hn : 0 < n := by omega
  have h1 := Nat.mod_lt t hn
  rw [Nat.mod_add_mod]
  have h3 := Nat.div_add_mod t n
  have : x + (n - t % n) + t = x + n * (t / n + 1) := by rw [Nat.mul_add, mul_one]; omega
  rw [this, Nat.add_mul_mod_self_left, Nat.mod_eq_of_lt hx]

/-- The cyclic motion of the grid. -/
def shiftMap (n t : V3 ℕ) : GridMap n n where
  dir s := ((s.1 + t.x) % n.x, (s.2.1 + t.y) % n.y, (s.2.2 + t.z) % n.z)
  inv s := ((s.1 + (n.x - t.x % n.x)) % n.x, (s.2.1 + (n.y - t.y % n.y)) % n.y, (s.2.2 + (n.z - t.z % n.z)) % n.z)
  size := rfl
  toBox s h := by
    obtain ⟨h1, h2, h3⟩ := h
    exact ⟨Nat.mod_lt _ (by omega), Nat.mod_lt _ (by omega), Nat.mod_lt _ (by omega)⟩
  invBox s h := by
    obtain ⟨h1, h2, h3⟩ := h
    exact ⟨Nat.mod_lt _ (by omega), Nat.mod_lt _ (by omega), Nat.mod_lt _ (by omega)⟩
  left s h := by
    obtain ⟨h1, h2, h3⟩ := h
    dsimp only
    rw [mod_shift h1, mod_shift h2, mod_shift h3]
  right s h := by
    obtain ⟨h1, h2, h3⟩ := h
    dsimp only
    rw [mod_shift' h1, mod_shift' h2, mod_shift' h3]

/-- The phase of a planewave at the new origin. -/
noncomputable def shiftPhase (n t : V3 ℕ) (s : ℕ × ℕ × ℕ) : ℂ := chi n.x (t.x * s.1) * chi n.y (t.y * s.2.1) * chi n.z (t.z * s.2.2)

theorem shiftPhase_norm (n t : V3 ℕ) (s : ℕ × ℕ × ℕ) : Complex.normSq (shiftPhase n t s) = 1 := by
  have : ∀ n j, Complex.normSq (chi n j) = 1 := fun n j => by
    have := chi_normSq n j
    rw [Complex.mul_conj] at this
    exact_mod_cast this
  simp [shiftPhase, this]

theorem shiftPhase_ne (n t : V3 ℕ) (s : ℕ × ℕ × ℕ) : shiftPhase n t s ≠ 0 :=
  mul_ne_zero (mul_ne_zero (chi_ne_zero _ _) (chi_ne_zero _ _)) (chi_ne_zero _ _)

theorem chi_mod_pos {n : ℕ} (hn : 0 < n) (g x t : ℕ) : chi n (g * ((x + t) % n : ℕ)) = chi n (t * g) * chi n (g * x) := by
  rw [← chi_add]
  refine chi_congr hn ?_
  have : ((x + t : ℕ) : ℤ) = n * ((x + t) / n : ℕ) + ((x + t) % n : ℕ) := by exact_mod_cast (Nat.div_add_mod (x + t) n).symm
  have e : (g : ℤ) * ((x + t) % n : ℕ) - (t * g + g * x) = n * (-(g * ((x + t) / n : ℕ))) := by
    have h2 : (((x + t) % n : ℕ) : ℤ) = x + t - n * ((x + t) / n : ℕ) := by push_cast at this ⊢; omega
    rw [h2]; ring
  rw [e]
  exact Dvd.intro _ rfl

theorem chi_mod_neg {n : ℕ} (hn : 0 < n) (g x t : ℕ) : chi n (-(((x + t) % n : ℕ) * g)) * chi n (t * g) = chi n (-(x * g)) := by
  have h := chi_mod_pos hn g x t
  have h1 : chi n (-(((x + t) % n : ℕ) * g)) = (starRingEnd ℂ) (chi n (g * ((x + t) % n : ℕ))) := by rw [chi_conj, mul_comm]
  have h2 : chi n (-(x * g)) = (starRingEnd ℂ) (chi n (g * x)) := by rw [chi_conj, mul_comm]
  rw [h1, h2, h, map_mul, mul_right_comm, mul_comm ((starRingEnd ℂ) _) (chi n (t * g)), chi_normSq, one_mul]

/-- The scalar change of amplitudes. -/
noncomputable def shiftFrame (n t : V3 ℕ) (N : ℕ) : Frame N where
  σ := Equiv.refl ℕ
  A G := LinearEquiv.smulOfNeZero ℂ (ℂ × ℂ) (shiftPhase n t (coords n G)) (shiftPhase_ne _ _ _)
  range _ := Iff.rfl
  norm G v := by simp [shiftPhase_norm]

/-- C96.  The origin of the unit cell does not matter: for every grid, lattice, wavevector, permittivity and permeability, moving the stored
tensors cyclically by any number of grid steps gives a problem with the same modes up to a phase for each planewave and the same
frequencies with the same multiplicities. -/
theorem C96_translation {t : V3 ℕ} {P P' : Problem} (h : Translated t P P') : SameModes P.data P'.data 1 := by
  obtain ⟨nx, ny, nz, nfb, Rm, k, e', m'⟩ := P'
  obtain ⟨h1, h2, h3, h4, h5, h6, he, hm⟩ := h
  dsimp only at h1 h2 h3 h4 h5 h6 he hm
  subst h1 h2 h3 h4 h5 h6
  set n : V3 ℕ := ⟨P.nx, P.ny, P.nz⟩ with hn
  set Q : Problem := ⟨P.nx, P.ny, P.nz, P.nfb, P.Rm, P.k, e', m'⟩ with hQ
  have hN : P.data.N = n.x * n.y * n.z := rfl
  set ρ := (shiftMap n t).perm with hρdef
  have hρ : ∀ r, ρ r < P.data.N ↔ r < P.data.N := (shiftMap n t).perm_lt
  have hpos : ∀ {r}, r < P.data.N → 0 < n.x ∧ 0 < n.y ∧ 0 < n.z := by
    intro r hr
    obtain ⟨⟨a, b, c⟩, -⟩ := box_coords (n := n) hr
    omega
  have hf : ∀ r < P.data.N, ∀ G < P.data.N, Q.data.Wf (ρ r) G * shiftPhase n t (coords n G) = P.data.Wf r G := by
    intro r hr G hG
    obtain ⟨br, cr⟩ := box_coords (n := n) hr
    obtain ⟨bG, cG⟩ := box_coords (n := n) hG
    obtain ⟨p1, p2, p3⟩ := hpos hr
    rw [(shiftMap n t).perm_apply hr]
    show dft (-1) n.x n.y n.z _ G * _ = dft (-1) n.x n.y n.z r G
    conv_lhs => rw [← cG]
    conv_rhs => rw [← cr, ← cG]
    rw [coords_cell bG, dft_neg_cell ((shiftMap n t).toBox _ br) bG, dft_neg_cell br bG, shiftPhase]
    dsimp only [shiftMap]
    rw [← chi_mod_neg p1 _ (coords n r).1 t.x, ← chi_mod_neg p2 _ (coords n r).2.1 t.y, ← chi_mod_neg p3 _ (coords n r).2.2 t.z]
    ring
  have hb : ∀ G < P.data.N, ∀ r < P.data.N, Q.data.Wb G (ρ r) = shiftPhase n t (coords n G) * P.data.Wb G r := by
    intro G hG r hr
    obtain ⟨br, cr⟩ := box_coords (n := n) hr
    obtain ⟨bG, cG⟩ := box_coords (n := n) hG
    obtain ⟨p1, p2, p3⟩ := hpos hr
    rw [(shiftMap n t).perm_apply hr]
    show dft 1 n.x n.y n.z G _ = _ * dft 1 n.x n.y n.z G r
    conv_lhs => rw [← cG]
    conv_rhs => rw [← cr, ← cG]
    rw [coords_cell bG, dft_pos_cell bG ((shiftMap n t).toBox _ br), dft_pos_cell bG br, shiftPhase]
    dsimp only [shiftMap]
    rw [chi_mod_pos p1, chi_mod_pos p2, chi_mod_pos p3]
    ring
  have hT : ∀ {f f' : ℕ → HMat}, Moved n t f f' → ∀ r < P.data.N, ∀ u, (f' (ρ r)).mulVec (turn 1 u) = turn 1 ((f r).mulVec u) := by
    intro f f' hmv r hr u
    obtain ⟨br, cr⟩ := box_coords (n := n) hr
    have := hmv _ br.1 _ br.2.1 _ br.2.2
    have e : ρ r = address n (((coords n r).1 + t.x) % n.x) (((coords n r).2.1 + t.y) % n.y) (((coords n r).2.2 + t.z) % n.z) :=
      (shiftMap n t).perm_apply hr
    rw [turn_one, turn_one, e, this]
    congr 2
  refine sameModes_of_ops (d := P.data) (d' := Q.data) rfl Iff.rfl (shiftFrame n t P.data.N) (fun x G hG => ?_) ?_
  · refine colOp_frame (d := P.data) (d' := Q.data) rfl (shiftFrame n t P.data.N) ρ hρ (fun G => shiftPhase n t (coords n G)) 1 hf hb (fun G _ v => ?_) (hT he) (fun G _ a => ?_) x hG
    · rw [turn_one]
      ext <;> apply Complex.ext <;> simp [crossT2c, shiftFrame, Problem.data, hQ] <;> ring
    · rw [turn_one]
      refine Prod.ext ?_ ?_ <;> apply Complex.ext <;> simp [crossC2t, shiftFrame, Problem.data, hQ] <;> ring
  · rcases hm with ⟨m1, m2⟩ | ⟨mu, mu', m1, m2, hmv⟩
    · exact Or.inl ⟨m1, m2⟩
    · refine Or.inr ⟨mu, mu', m1, m2, fun x G hG => ?_⟩
      refine colOp_frame (d := P.data) (d' := Q.data) rfl (shiftFrame n t P.data.N) ρ hρ (fun G => shiftPhase n t (coords n G)) 1 hf hb (fun G _ v => ?_) (hT hmv) (fun G _ a => ?_) x hG
      · rw [turn_one]
        ext <;> apply Complex.ext <;> simp [t2c, shiftFrame, Problem.data, hQ] <;> ring
      · rw [turn_one]
        refine Prod.ext ?_ ?_ <;> apply Complex.ext <;> simp [c2t, shiftFrame, Problem.data, hQ] <;> ring

/-- Non-vacuity: a medium with `ε⁻¹ = 1, 2, 3, 4` on four grid points and the same moved by three. -/
example : Translated ⟨3, 0, 0⟩ ⟨4, 1, 1, 1, M3.one, ⟨1 / 4, 0, 0⟩, fun r => ⟨r + 1, r + 1, r + 1, 0, 0, 0⟩, none⟩
    ⟨4, 1, 1, 1, M3.one, ⟨1 / 4, 0, 0⟩, fun r => ⟨((r + 1) % 4 : ℕ) + 1, ((r + 1) % 4 : ℕ) + 1, ((r + 1) % 4 : ℕ) + 1, 0, 0, 0⟩, none⟩ := by
  refine ⟨rfl, rfl, rfl, rfl, rfl, rfl, fun x hx y hy z hz => ?_, Or.inl ⟨rfl, rfl⟩⟩
  dsimp only at hx hy hz
  obtain rfl : y = 0 := by omega
  obtain rfl : z = 0 := by omega
  have : ((x + 3) % 4 + 1) % 4 = x := by omega
  simp [address, this]

end Mpb.Invariance

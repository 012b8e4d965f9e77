import Verif.Half.Lemmas
import Verif.IO.Props

/-!
# C35: output of fields with inversion symmetry
-/

namespace Mpb.Half

open Mpb.IO

variable {V : Type} {mul : ℂ → V → V} {conj : V → V}

/-! ## Specification -/

/-- A point of the cell. -/
def Cell (n x : ℕ × ℕ × ℕ) : Prop := x.1 < n.1 ∧ x.2.1 < n.2.1 ∧ x.2.2 < n.2.2

/-- A point of a block. -/
def InBlk (b : Blk) (x : ℕ × ℕ × ℕ) : Prop :=
  (b.start.1 ≤ x.1 ∧ x.1 < b.start.1 + b.ld.1) ∧ (b.start.2.1 ≤ x.2.1 ∧ x.2.1 < b.start.2.1 + b.ld.2.1) ∧ (b.start.2.2 ≤ x.2.2 ∧ x.2.2 < b.start.2.2 + b.ld.2.2)

/-- The array holds `w` on the block, row-major. -/
def HoldsBlk (b : Blk) (w : ℕ × ℕ × ℕ → V) (f : ℕ → V) : Prop :=
  ∀ t : ℕ × ℕ × ℕ, t.1 < b.ld.1 → t.2.1 < b.ld.2.1 → t.2.2 < b.ld.2.2 →
    f ((t.1 * b.ld.2.1 + t.2.1) * b.ld.2.2 + t.2.2) = w (b.start.1 + t.1, b.start.2.1 + t.2.1, b.start.2.2 + t.2.2)

/-- The periodic part of a Bloch field of a structure with inversion symmetry: periodic, and conjugated at the inverted point. -/
structure Inv (n : ℕ × ℕ × ℕ) (u : ℤ → ℤ → ℤ → ℂ) : Prop where
  px : ∀ x y z, u (x + n.1) y z = u x y z
  py : ∀ x y z, u x (y + n.2.1) z = u x y z
  pz : ∀ x y z, u x y (z + n.2.2) = u x y z
  inv : ∀ x y z, u (-x) (-y) (-z) = (starRingEnd ℂ) (u x y z)

/-- The Bloch field. -/
noncomputable def blochField (n : ℕ × ℕ × ℕ) (k : ℝ × ℝ × ℝ) (u : ℤ → ℤ → ℤ → ℂ) (x : ℕ × ℕ × ℕ) : ℂ := u x.1 x.2.1 x.2.2 * IO.Spec.bloch k n x

/-! ## The inversion law -/

/-- `w` at a point is determined by `w` at the inverted point. -/
def Law (mul : ℂ → V → V) (conj : V → V) (n : ℕ × ℕ × ℕ) (k : ℝ × ℝ × ℝ) (w : ℕ × ℕ × ℕ → V) : Prop :=
  ∀ x y : ℕ × ℕ × ℕ, Cell n x → Cell n y → ∀ bx bY bz : Bool, x.1 + y.1 = (if bx then n.1 else 0) → x.2.1 + y.2.1 = (if bY then n.2.1 else 0) →
    x.2.2 + y.2.2 = (if bz then n.2.2 else 0) → w y = conj (mul (ph ((if bx then k.1 else 0) + (if bY then k.2.1 else 0) + (if bz then k.2.2 else 0))) (w x))

theorem ph_eq (t : ℝ) : ph t = Complex.exp (-(2 * Real.pi * Complex.I * t)) := by
  have e : (-(2 * Real.pi * Complex.I * t) : ℂ) = ((t * -(2 * Real.pi) : ℝ) : ℂ) * Complex.I := by push_cast; ring
  rw [e]
  apply Complex.ext
  · rw [Complex.exp_ofReal_mul_I_re]; rfl
  · rw [Complex.exp_ofReal_mul_I_im]; rfl

theorem law_bloch {n : ℕ × ℕ × ℕ} (hn : 0 < n.1 ∧ 0 < n.2.1 ∧ 0 < n.2.2) (k : ℝ × ℝ × ℝ) (u : ℤ → ℤ → ℤ → ℂ) (hu : Inv n u) :
    Law (fun p v => v * p) (starRingEnd ℂ) n k (blochField n k u) := by
  intro x y _ _ bx bY bz h1 h2 h3
  have hfl : ∀ (b : Bool) (a c m : ℕ), a + c = (if b then m else 0) → (c : ℤ) = -(a : ℤ) + (if b then (m : ℤ) else 0) := by
    intro b a c m h
    cases b <;> simp at h ⊢ <;> omega
  have hu' : u y.1 y.2.1 y.2.2 = (starRingEnd ℂ) (u x.1 x.2.1 x.2.2) := by
    rw [← hu.inv, hfl _ _ _ _ h1, hfl _ _ _ _ h2, hfl _ _ _ _ h3]
    cases bx <;> cases bY <;> cases bz <;> simp [hu.px, hu.py, hu.pz]
  have hb : IO.Spec.bloch k n y = (starRingEnd ℂ) (IO.Spec.bloch k n x * ph ((if bx then k.1 else 0) + (if bY then k.2.1 else 0) + (if bz then k.2.2 else 0))) := by
    rw [ph_eq, IO.Spec.bloch, IO.Spec.bloch, ← Complex.exp_add, ← Complex.exp_conj]
    congr 1
    have hd : ∀ (b : Bool) (a c m : ℕ) (q : ℝ), 0 < m → a + c = (if b then m else 0) → ((q : ℂ) * c / m) = (if b then (q : ℂ) else 0) - q * a / m := by
      intro b a c m q hm h
      have hm' : (m : ℂ) ≠ 0 := by exact_mod_cast hm.ne'
      have hc : (c : ℂ) = (if b then (m : ℂ) else 0) - a := by
        have : ((a + c : ℕ) : ℂ) = ((if b then m else 0 : ℕ) : ℂ) := by rw [h]
        rw [eq_sub_iff_add_eq, add_comm]
        push_cast at this
        cases b <;> simpa using this
      rw [hc]
      cases b
      · simp; ring
      · simp; field_simp
    rw [hd _ _ _ _ _ hn.1 h1, hd _ _ _ _ _ hn.2.1 h2, hd _ _ _ _ _ hn.2.2 h3]
    simp only [map_add, map_mul, map_neg, map_div₀, Complex.conj_ofReal, Complex.conj_I, map_natCast, map_ofNat]
    push_cast
    cases bx <;> cases bY <;> cases bz <;> simp <;> ring
  show u y.1 y.2.1 y.2.2 * IO.Spec.bloch k n y = _
  rw [hu', hb]
  simp only [blochField, map_mul]
  ring

/-- The law of a real scalar field that is periodic and even. -/
theorem law_scalar {n : ℕ × ℕ × ℕ} (w : ℤ → ℤ → ℤ → ℝ) (px : ∀ x y z, w (x + n.1) y z = w x y z) (py : ∀ x y z, w x (y + n.2.1) z = w x y z)
    (pz : ∀ x y z, w x y (z + n.2.2) = w x y z) (inv : ∀ x y z, w (-x) (-y) (-z) = w x y z) :
    Law (fun _ v => v) (fun v => v) n (0, 0, 0) (fun x => w x.1 x.2.1 x.2.2) := by
  intro x y _ _ bx bY bz h1 h2 h3
  have hfl : ∀ (b : Bool) (a c m : ℕ), a + c = (if b then m else 0) → (c : ℤ) = -(a : ℤ) + (if b then (m : ℤ) else 0) := by
    intro b a c m h
    cases b <;> simp at h ⊢ <;> omega
  simp only
  rw [← inv x.1, hfl _ _ _ _ h1, hfl _ _ _ _ h2, hfl _ _ _ _ h3]
  cases bx <;> cases bY <;> cases bz <;> simp [px, py, pz]

/-! ## Three dimensions: one slab -/

theorem phase_flags (kx ky kz : ℝ) (bx bY : Bool) : phase kx ky kz bx bY = ph ((if bx then kx else 0) + (if bY then ky else 0) + (if true then kz else 0)) := by
  cases bx <;> cases bY <;> simp [phase] <;> ring_nf

/-- Where row `ix` of the other half of the slab goes. -/
def rowPos (d0 L st ix : ℕ) : ℕ := if st = 0 then (if ix = 0 then 0 else d0 - L + ix) else d0 - (st + L - 1) + ix

theorem half3 (d0 d1 d2 L st : ℕ) (k : ℝ × ℝ × ℝ) (w : ℕ × ℕ × ℕ → V) (f : ℕ → V) (hL : 0 < L) (hst : st + L ≤ d0) (hd2 : 0 < d2)
    (law : Law mul conj (d0, d1, d2) k w)
    (hf : ∀ ix iy iz, ix < L → iy < d1 → iz < d2 / 2 + 1 → iz < d2 → f ((ix * d1 + iy) * (d2 / 2 + 1) + iz) = w (st + ix, iy, iz))
    (ix iy j : ℕ) (h1 : ix < L) (h2 : iy < d1) (h3 : j < d2 - (d2 / 2 + 1)) :
    compact conj (L * d1) (d2 - (d2 / 2 + 1)) (d2 / 2 + 1) (swap3 mul (st = 0) L d1 (d2 - (d2 / 2 + 1)) (d2 / 2 + 1) k.1 k.2.1 k.2.2 f)
      ((ix * d1 + iy) * (d2 - (d2 / 2 + 1)) + j) = w (rowPos d0 L st ix, iy, d2 / 2 + 1 + j) := by
  set nS := d2 / 2 + 1 with hS
  set nN := d2 - nS with hN
  have hlt : nN < nS := by omega
  have hrow : ix * d1 + iy < L * d1 := rowMajor_lt h1 h2
  have hc := compact_spec (conj := conj) hlt (swap3 mul (st = 0) L d1 nN nS k.1 k.2.1 k.2.2 f) (ix * d1 + iy) (j + 1) hrow (by omega) (by omega)
  rw [Nat.add_sub_cancel] at hc
  rw [hc]
  have hs := swap3_spec (mul := mul) (zs := decide (st = 0)) hL hlt k.1 k.2.1 k.2.2 f (ix, iy, j + 1) ⟨h1, h2, by simp only; omega, by simp only; omega⟩
  simp only [a3, σ3] at hs
  rw [hs]
  have hr : rowc (decide (st = 0)) L ix < L := rowc_lt h1
  have hm : (d1 - iy) % d1 < d1 := mirror_lt h2
  rw [hf _ _ _ hr hm (by omega) (by omega), phase_flags]
  refine (law (st + rowc (decide (st = 0)) L ix, (d1 - iy) % d1, nN + 1 - (j + 1)) (rowPos d0 L st ix, iy, nS + j) ⟨by simp only; omega, hm, by simp only; omega⟩
    ⟨?_, h2, by simp only; omega⟩ (xd (decide (st = 0)) ix) (decide (iy ≠ 0)) true ?_ ?_ ?_).symm
  · simp only [rowPos]; split_ifs <;> omega
  · simp only [rowPos, rowc, xd]
    by_cases h0 : st = 0
    · simp only [h0, decide_true, if_true]
      by_cases hx : ix = 0
      · subst hx; simp
      · rw [mirror_pos hx h1]; simp [hx]; omega
    · simp only [h0, decide_false, if_false, if_true, Bool.false_eq_true]; omega
  · simp only
    by_cases hy : iy = 0
    · subst hy; simp
    · rw [mirror_pos hy h2]; simp [hy]; omega
  · simp only [if_true]; omega

/-! ## The whole grid, serial -/

theorem law_rank2 {nx ny : ℕ} {k : ℝ × ℝ × ℝ} {w : ℕ × ℕ × ℕ → V} (law : Law mul conj (nx, ny, 1) k w) :
    Law mul conj (nx, 1, ny) (k.1, 0, k.2.1) (fun x => w (x.1, x.2.2, 0)) := by
  intro x y hx hy bx bY bz h1 h2 h3
  have hb : bY = false := by
    cases bY
    · rfl
    · have := hx.2.1; have := hy.2.1; simp only [if_true] at *; omega
  subst hb
  have := law (x.1, x.2.2, 0) (y.1, y.2.2, 0) ⟨hx.1, hx.2.2, one_pos⟩ ⟨hy.1, hy.2.2, one_pos⟩ bx bz false h1 h3 rfl
  refine this.trans ?_
  simp only [if_false, Bool.false_eq_true, add_zero]

theorem law_rank1 {nx : ℕ} {k : ℝ × ℝ × ℝ} {w : ℕ × ℕ × ℕ → V} (law : Law mul conj (nx, 1, 1) k w) :
    Law mul conj (1, 1, nx) (0, 0, k.1) (fun x => w (x.2.2, 0, 0)) := by
  intro x y hx hy bx bY bz h1 h2 h3
  have hb : bY = false := by
    cases bY
    · rfl
    · have := hx.2.1; have := hy.2.1; simp only [if_true] at *; omega
  have hb' : bx = false := by
    cases bx
    · rfl
    · have := hx.1; have := hy.1; simp only [if_true] at *; omega
  subst hb hb'
  have := law (x.2.2, 0, 0) (y.2.2, 0, 0) ⟨hx.2.2, one_pos, one_pos⟩ ⟨hy.2.2, one_pos, one_pos⟩ bz false false h3 rfl rfl
  refine this.trans ?_
  simp only [if_false, Bool.false_eq_true, add_zero, zero_add]

/-- C35 at the level of the array, for all three functions: after the call the array holds the field on the other block. -/
theorem C35_otherhalf (nx ny nz : ℕ) (hx : 0 < nx) (hy : 0 < ny) (hz : 0 < nz) (k : ℝ × ℝ × ℝ) (w : ℕ × ℕ × ℕ → V) (f : ℕ → V) (law : Law mul conj (nx, ny, nz) k w)
    (hf : HoldsBlk (firstBlk nx ny nz) w f) : HoldsBlk (otherBlk nx ny nz) w (otherhalf mul conj nx ny nz k f) := by
  by_cases h3 : nz = 1
  · subst h3
    by_cases h2 : ny = 1
    · subst h2
      have hr : rank nx 1 1 = 1 := by simp [rank]
      simp only [HoldsBlk, firstBlk, otherBlk, otherhalf, hr] at hf ⊢
      simp only [if_neg (show ¬ (1 = 3) by decide), if_neg (show ¬ (1 = 2) by decide), zero_add, mul_one] at hf ⊢
      rintro ⟨t1, t2, t3⟩ g1 g2 g3
      simp only at g1 g2 g3
      have e2 : t2 = 0 := by omega
      have e3 : t3 = 0 := by omega
      subst e2 e3
      rw [swap2_eq 1 _ _ one_pos]
      have := half3 (mul := mul) (conj := conj) 1 1 nx 1 0 (0, 0, k.1) (fun x => w (x.2.2, 0, 0)) f one_pos le_rfl hx (law_rank1 law)
        (fun ix iy iz g1 g2 g3 g4 => by
          have e1 : ix = 0 := by omega
          have e2 : iy = 0 := by omega
          subst e1 e2
          have := hf (iz, 0, 0) g3 one_pos one_pos
          simpa using this) 0 0 t1 one_pos one_pos g1
      simpa using this
    · have hr : rank nx ny 1 = 2 := by simp [rank, h2]
      simp only [HoldsBlk, firstBlk, otherBlk, otherhalf, hr] at hf ⊢
      simp only [if_neg (show ¬ (2 = 3) by decide), if_pos, zero_add, mul_one] at hf ⊢
      rintro ⟨t1, t2, t3⟩ g1 g2 g3
      simp only at g1 g2 g3
      have e3 : t3 = 0 := by omega
      subst e3
      rw [swap2_eq nx _ _ hx]
      have := half3 (mul := mul) (conj := conj) nx 1 ny nx 0 (k.1, 0, k.2.1) (fun x => w (x.1, x.2.2, 0)) f hx (by omega) hy (law_rank2 law)
        (fun ix iy iz g1 g2 g3 g4 => by
          have e2 : iy = 0 := by omega
          subst e2
          have := hf (ix, iz, 0) g1 g3 one_pos
          simpa using this) t1 0 t2 g1 one_pos g2
      have hp : rowPos nx nx 0 t1 = t1 := by unfold rowPos; simp; omega
      rw [hp] at this
      simpa using this
  · have hr : rank nx ny nz = 3 := by simp [rank, h3]
    simp only [HoldsBlk, firstBlk, otherBlk, otherhalf, hr] at hf ⊢
    simp only [if_pos, zero_add] at hf ⊢
    rintro ⟨t1, t2, t3⟩ g1 g2 g3
    have := half3 (mul := mul) (conj := conj) nx ny nz nx 0 k w f hx (by omega) hz law (fun ix iy iz g1 g2 g3 g4 => by
      have := hf (ix, iy, iz) g1 g2 g3
      simpa using this) t1 t2 t3 g1 g2 g3
    have hp : rowPos nx nx 0 t1 = t1 := by unfold rowPos; simp; omega
    rw [hp] at this
    simpa using this

/-! ## With MPI -/

/-- The rows a process may hold: in two dimensions only the rows up to the middle are stored. -/
def SlabOK (ny nz ly ys : ℕ) : Prop := 0 < ly ∧ ys + ly ≤ (if nz = 1 then ny / 2 + 1 else ny)

/-- C35 at the level of the array with MPI. -/
theorem C35_otherhalf_mpi_partial (nx ny nz ly ys : ℕ) (hx : 0 < nx) (hy : 0 < ny) (hz : 0 < nz) (hrank : ¬ (ny = 1 ∧ nz = 1)) (hs : SlabOK ny nz ly ys) (k : ℝ × ℝ × ℝ) (w : ℕ × ℕ × ℕ → V)
    (f : ℕ → V) (law : Law mul conj (ny, nx, nz) k w) (hf : HoldsBlk (firstBlkM nx ny nz ly ys) w f) :
    ∃ F, otherhalfM mul conj nx ny nz ly ys k f = some F ∧ ∀ b ∈ otherBlksM nx ny nz ly ys, HoldsBlk b.1 w (fun a => F (b.2 + a)) := by
  obtain ⟨hly, hys⟩ := hs
  by_cases h3 : nz = 1
  · subst h3
    have h2 : ny ≠ 1 := fun h => hrank ⟨h, rfl⟩
    have hr : rank nx ny 1 = 2 := by simp [rank, h2]
    simp only [if_true] at hys
    simp only [HoldsBlk, firstBlkM, otherBlksM, otherhalfM, hr, if_true, List.mem_singleton] at hf ⊢
    rw [if_neg (by decide)]
    refine ⟨_, rfl, ?_⟩
    rintro _ rfl ⟨t1, t2, t3⟩ g1 g2 g3
    simp only at g1 g2 g3
    have e3 : t3 = 0 := by omega
    subst e3
    simp only [mul_one, add_zero, zero_add]
    set nN := nNewM ny ly ys with hN
    have hsize : (if ys + ly = ny / 2 + 1 ∧ ny % 2 = 0 then (if ys = 0 then ly - 1 else ly) - 1 else (if ys = 0 then ly - 1 else ly)) = nN := rfl
    rw [hsize] at g1
    have hjm : jmin ys ≤ 1 := by unfold jmin; split_ifs <;> omega
    have hc := compactM_spec (conj := conj) (nx := nx) (jm := jmin ys) (nNew := nN) (swapM mul nx (jmin ys) nN k.2.1 k.1 f) t2 (t1 + jmin ys) g2 (by omega) (by omega)
    rw [Nat.add_sub_cancel] at hc
    rw [hc]
    have hsw := swapM_spec (mul := mul) (nx := nx) (nNew := nN) hjm k.2.1 k.1 f (t2, t1 + jmin ys) ⟨g2, by simp only; omega, by simp only; omega⟩
    simp only [aM, σM] at hsw
    rw [hsw]
    have hm : (nx - t2) % nx < nx := mirror_lt g2
    have hj1 : nN + jmin ys + jmin ys - 1 - (t1 + jmin ys) = nN + jmin ys - 1 - t1 := by omega
    have hj2 : nN + jmin ys ≤ ly := by
      rw [hN]; unfold nNewM jmin; simp only; split_ifs <;> omega
    rw [hj1]
    have hfv := hf (nN + jmin ys - 1 - t1, (nx - t2) % nx, 0) (by simp only; omega) hm one_pos
    simp only [mul_one, add_zero, zero_add] at hfv
    rw [hfv]
    have hphase : (if t2 ≠ 0 then ph (k.2.1 + k.1) else ph k.1) = ph ((if true then k.1 else 0) + (if decide (t2 ≠ 0) then k.2.1 else 0) + (if false then k.2.2 else 0)) := by
      by_cases ht : t2 = 0
      · simp [ht]
      · simp [ht, add_comm]
    rw [hphase]
    have hsum : ys + (nN + jmin ys - 1 - t1) + ((if ys + ly = ny / 2 + 1 ∧ ny % 2 = 0 then ny - (ys + ly - 1) + 1 else ny - (ys + ly - 1)) + t1) = ny := by
      have e : nN = nNewM ny ly ys := hN
      unfold nNewM at e
      unfold jmin
      simp only at e
      split_ifs at e ⊢ <;> omega
    have hpos : ys + (nN + jmin ys - 1 - t1) ≠ 0 := by
      unfold jmin
      split_ifs <;> omega
    refine (law (ys + (nN + jmin ys - 1 - t1), (nx - t2) % nx, 0)
      ((if ys + ly = ny / 2 + 1 ∧ ny % 2 = 0 then ny - (ys + ly - 1) + 1 else ny - (ys + ly - 1)) + t1, t2, 0)
      ⟨by simp only; omega, hm, one_pos⟩ ⟨by simp only; omega, g2, one_pos⟩ true (decide (t2 ≠ 0)) false ?_ ?_ ?_).symm
    · simpa using hsum
    · simp only
      by_cases ht : t2 = 0
      · subst ht; simp
      · rw [mirror_pos ht g2]; simp [ht]; omega
    · rfl
  · have hr : rank nx ny nz = 3 := by simp [rank, h3]
    simp only [if_neg h3] at hys
    simp only [HoldsBlk, firstBlkM, otherBlksM, otherhalfM, hr, if_true, if_neg h3, zero_add] at hf ⊢
    refine ⟨_, if_neg (by omega), ?_⟩
    have key := half3 (mul := mul) (conj := conj) ny nx nz ly ys k w f hly hys hz law (fun ix iy iz g1 g2 g3 g4 => by
      have := hf (ix, iy, iz) g1 g2 g3
      simpa using this)
    by_cases h0 : ys = 0
    · simp only [if_pos h0]
      intro b hb
      simp only [List.mem_cons, List.not_mem_nil, or_false] at hb
      rcases hb with rfl | rfl
      · rintro ⟨t1, t2, t3⟩ g1 g2 g3
        simp only at g1 g2 g3
        have := key (t1 + 1) t2 t3 (by omega) g2 g3
        have e : rowPos ny ly ys (t1 + 1) = ny - (ly - 1) + t1 := by unfold rowPos; simp [h0]; omega
        rw [e] at this
        simp only [zero_add]
        rw [← this]
        congr 1
        ring
      · rintro ⟨t1, t2, t3⟩ g1 g2 g3
        simp only at g1 g2 g3
        have e1 : t1 = 0 := by omega
        subst e1
        have := key 0 t2 t3 (by omega) g2 g3
        have e : rowPos ny ly ys 0 = 0 := by unfold rowPos; simp [h0]
        rw [e] at this
        simpa using this
    · simp only [if_neg h0]
      intro b hb
      simp only [List.mem_singleton] at hb
      subst hb
      rintro ⟨t1, t2, t3⟩ g1 g2 g3
      simp only at g1 g2 g3
      have := key t1 t2 t3 g1 g2 g3
      have e : rowPos ny ly ys t1 = ny - (ys + ly - 1) + t1 := by unfold rowPos; simp [h0]
      rw [e] at this
      simpa using this

/-! ## The file -/

theorem gridIdx_inj {n x y : ℕ × ℕ × ℕ} (hx : Cell n x) (hy : Cell n y) (h : gridIdx n x = gridIdx n y) : x = y := by
  obtain ⟨x1, x2, x3⟩ := x
  obtain ⟨y1, y2, y3⟩ := y
  obtain ⟨a1, a2, a3⟩ := hx
  obtain ⟨b1, b2, b3⟩ := hy
  simp only at a1 a2 a3 b1 b2 b3
  unfold gridIdx at h
  by_cases h3 : n.2.2 = 1
  · by_cases h2 : n.2.1 = 1
    · simp only [h3, h2, if_true, List.cons.injEq, and_true] at h
      simp only [Prod.mk.injEq]; omega
    · simp only [h3, h2, if_true, if_false, List.cons.injEq, and_true] at h
      simp only [Prod.mk.injEq]; omega
  · simp only [h3, if_false, List.cons.injEq, and_true] at h
    simp only [Prod.mk.injEq]; omega

/-- The block lies in the cell, and is full in the directions the dataset does not have. -/
def BlkOK (n : ℕ × ℕ × ℕ) (b : Blk) : Prop := IsBlock n b.ld b.start ∧ (n.2.2 = 1 → b.ld.2.2 = 1 ∧ (n.2.1 = 1 → b.ld.2.1 = 1))

theorem firstDims_conv {n : ℕ × ℕ × ℕ} {b : Blk} (hb : BlkOK n b) {idx : List ℕ} (hi : idx ∈ boxIdx (firstDims (fieldRank n) b.ld)) :
    ∃ t : ℕ × ℕ × ℕ, t.1 < b.ld.1 ∧ t.2.1 < b.ld.2.1 ∧ t.2.2 < b.ld.2.2 ∧
      addIdx (firstDims (fieldRank n) b.start) idx = gridIdx n (b.start.1 + t.1, b.start.2.1 + t.2.1, b.start.2.2 + t.2.2) := by
  obtain ⟨⟨h1, h2, h3⟩, h4⟩ := hb
  rw [mem_boxIdx] at hi
  unfold fieldRank at hi ⊢
  unfold gridIdx
  by_cases e3 : n.2.2 = 1
  · obtain ⟨h4, h5⟩ := h4 e3
    by_cases e2 : n.2.1 = 1
    · have h5 := h5 e2
      simp only [e3, e2, if_true, firstDims, List.take_succ_cons, List.take_zero, List.forall₂_cons_right_iff, List.forall₂_nil_right_iff] at hi ⊢
      obtain ⟨a, _, ha, rfl, rfl⟩ := hi
      exact ⟨(a, 0, 0), ha, by simp only; omega, by simp only; omega, by simp [addIdx]⟩
    · simp only [e3, e2, if_true, if_false, firstDims, List.take_succ_cons, List.take_zero, List.forall₂_cons_right_iff, List.forall₂_nil_right_iff] at hi ⊢
      obtain ⟨a, _, ha, ⟨b', _, hb, rfl, rfl⟩, rfl⟩ := hi
      exact ⟨(a, b', 0), ha, hb, by simp only; omega, by simp [addIdx]⟩
  · simp only [e3, if_false, firstDims, List.take_succ_cons, List.take_zero, List.forall₂_cons_right_iff, List.forall₂_nil_right_iff] at hi ⊢
    obtain ⟨a, _, ha, ⟨b', _, hb, ⟨c, _, hc, rfl, rfl⟩, rfl⟩, rfl⟩ := hi
    exact ⟨(a, b', c), ha, hb, hc, by simp [addIdx]⟩

/-- A write that puts the right values on a block and leaves right values elsewhere right. -/
def Correct (n : ℕ × ℕ × ℕ) (G : ℕ × ℕ × ℕ → ℝ) (b : Blk) (a : Act) : Prop :=
  ∀ d, ∃ d', a d = some d' ∧ ∀ x, Cell n x → (InBlk b x ∨ d (gridIdx n x) = G x) → d' (gridIdx n x) = G x

theorem write_correct {n : ℕ × ℕ × ℕ} {b : Blk} (hb : BlkOK n b) (stride : ℕ) (hs : 1 ≤ stride) (data c0 : ℕ → ℝ) (G : ℕ × ℕ × ℕ → ℝ)
    (hG : ∀ t : ℕ × ℕ × ℕ, t.1 < b.ld.1 → t.2.1 < b.ld.2.1 → t.2.2 < b.ld.2.2 →
      data (((t.1 * b.ld.2.1 + t.2.1) * b.ld.2.2 + t.2.2) * stride) = G (b.start.1 + t.1, b.start.2.1 + t.2.1, b.start.2.2 + t.2.2)) :
    Correct n G b (fun d => writeReal (firstDims (fieldRank n) b.ld) (firstDims (fieldRank n) b.start) stride data c0 d) := by
  intro d
  obtain ⟨d', h1, h2, h3⟩ := writeReal_apply (firstDims (fieldRank n) b.ld) (firstDims (fieldRank n) b.start) stride data c0 d
    (by unfold firstDims fieldRank; split_ifs <;> simp) (by simp [firstDims]) hs
  refine ⟨d', h1, fun x hx h => ?_⟩
  by_cases hin : InBlk b x
  · obtain ⟨g1, g2, g3⟩ := hin
    obtain ⟨idx, hi, e1, e2⟩ := firstDims_facts n b.ld b.start hb.1 (x.1 - b.start.1, x.2.1 - b.start.2.1, x.2.2 - b.start.2.2) (by simp only; omega) (by simp only; omega)
      (by simp only; omega)
    have hv := h2 idx hi
    rw [e1, e2, hG _ (by simp only; omega) (by simp only; omega) (by simp only; omega)] at hv
    simp only [Nat.add_sub_cancel' g1.1, Nat.add_sub_cancel' g2.1, Nat.add_sub_cancel' g3.1] at hv
    exact hv
  · rw [h3, (h.resolve_left hin)]
    intro idx hi e
    obtain ⟨t, g1, g2, g3, e'⟩ := firstDims_conv hb hi
    obtain ⟨hb1, hb2, hb3⟩ := hb.1
    have := gridIdx_inj hx (y := (b.start.1 + t.1, b.start.2.1 + t.2.1, b.start.2.2 + t.2.2)) ⟨by simp only; omega, by simp only; omega, by simp only; omega⟩ (e.trans e')
    subst this
    exact hin ⟨⟨by simp only; omega, by simp only; omega⟩, ⟨by simp only; omega, by simp only; omega⟩, ⟨by simp only; omega, by simp only; omega⟩⟩

theorem runActs_correct (n : ℕ × ℕ × ℕ) (G : ℕ × ℕ × ℕ → ℝ) (P : Blk → Act → Prop) : ∀ (as : List Act) (d : Dataset), (∀ a ∈ as, ∃ b, P b a ∧ Correct n G b a) →
    ∃ d', runActs as d = some d' ∧ ∀ x, Cell n x → ((∃ a ∈ as, ∃ b, InBlk b x ∧ Correct n G b a) ∨ d (gridIdx n x) = G x) → d' (gridIdx n x) = G x := by
  intro as
  induction as with
  | nil => intro d _; exact ⟨d, rfl, fun x _ h => by simpa using h⟩
  | cons a as ih =>
    intro d h
    obtain ⟨b, -, hb⟩ := h a List.mem_cons_self
    obtain ⟨d1, e1, e2⟩ := hb d
    obtain ⟨d2, g1, g2⟩ := ih d1 (fun a ha => h a (List.mem_cons_of_mem _ ha))
    refine ⟨d2, by rw [runActs, e1]; exact g1, fun x hx hh => g2 x hx ?_⟩
    rcases hh with ⟨a', ha', b', hin, hc⟩ | hh
    · rcases List.mem_cons.1 ha' with rfl | ha'
      · right
        obtain ⟨d1', e1', e2'⟩ := hc d
        rw [e1] at e1'
        injection e1' with e1'
        subst e1'
        exact e2' x hx (Or.inl hin)
      · exact Or.inl ⟨a', ha', b', hin, hc⟩
    · exact Or.inr (e2 x hx (Or.inr hh))

/-! ### Serial -/

theorem firstBlk_ok (nx ny nz : ℕ) (hx : 0 < nx) (hy : 0 < ny) (hz : 0 < nz) : BlkOK (nx, ny, nz) (firstBlk nx ny nz) := by
  unfold firstBlk rank BlkOK IsBlock
  split_ifs <;> simp only at * <;> omega

theorem otherBlk_ok (nx ny nz : ℕ) (hx : 0 < nx) (hy : 0 < ny) (hz : 0 < nz) : BlkOK (nx, ny, nz) (otherBlk nx ny nz) := by
  unfold otherBlk rank BlkOK IsBlock
  split_ifs <;> simp only at * <;> omega

/-- The two blocks make up the cell, without overlap. -/
theorem C35_once (nx ny nz : ℕ) (hx : 0 < nx) (hy : 0 < ny) (hz : 0 < nz) (x : ℕ × ℕ × ℕ) (h : Cell (nx, ny, nz) x) :
    (InBlk (firstBlk nx ny nz) x ∧ ¬ InBlk (otherBlk nx ny nz) x) ∨ (InBlk (otherBlk nx ny nz) x ∧ ¬ InBlk (firstBlk nx ny nz) x) := by
  obtain ⟨h1, h2, h3⟩ := h
  simp only at h1 h2 h3
  unfold firstBlk otherBlk rank InBlk
  split_ifs <;> simp only at * <;> omega

/-- C35 for real scalar fields, serial: whatever the sizes, if the array given holds on the stored half a field equal at inverted points, then afterwards the dataset holds the field at every point of
the cell. -/
theorem C35_scalar (nx ny nz : ℕ) (hx : 0 < nx) (hy : 0 < ny) (hz : 0 < nz) (w : ℕ × ℕ × ℕ → ℝ) (hw : Law (fun _ v => v) (fun v => v) (nx, ny, nz) (0, 0, 0) w)
    (c0 vals : ℕ → ℝ) (hf : HoldsBlk (firstBlk nx ny nz) w vals) (d : Dataset) :
    ∃ d', runActs (actsScalar nx ny nz c0 vals) d = some d' ∧ ∀ x, Cell (nx, ny, nz) x → d' (gridIdx (nx, ny, nz) x) = w x := by
  have hf' := C35_otherhalf nx ny nz hx hy hz (0, 0, 0) w vals hw hf
  have c1 := write_correct (firstBlk_ok nx ny nz hx hy hz) 1 le_rfl vals c0 w (fun t g1 g2 g3 => by rw [mul_one]; exact hf t g1 g2 g3)
  have c2 := write_correct (otherBlk_ok nx ny nz hx hy hz) 1 le_rfl (otherhalf (fun _ v => v) (fun v => v) nx ny nz (0, 0, 0) vals) c0 w
    (fun t g1 g2 g3 => by rw [mul_one]; exact hf' t g1 g2 g3)
  obtain ⟨d', e1, e2⟩ := runActs_correct (nx, ny, nz) w (fun _ _ => True) (actsScalar nx ny nz c0 vals) d (by
    intro a ha
    simp only [actsScalar, List.mem_cons, List.not_mem_nil, or_false] at ha
    rcases ha with rfl | rfl
    · exact ⟨_, trivial, c1⟩
    · exact ⟨_, trivial, c2⟩)
  refine ⟨d', e1, fun x hx' => e2 x hx' (Or.inl ?_)⟩
  rcases C35_once nx ny nz hx hy hz x hx' with h | h
  · exact ⟨_, List.mem_cons_self, _, h.1, c1⟩
  · exact ⟨_, List.mem_cons_of_mem _ List.mem_cons_self, _, h.1, c2⟩

/-- The law for triples. -/
theorem law_triple {n : ℕ × ℕ × ℕ} {k : ℝ × ℝ × ℝ} {w : Fin 3 → ℕ × ℕ × ℕ → ℂ} (h : ∀ c, Law (fun p v => v * p) (starRingEnd ℂ) n k (w c)) :
    Law mulV conjV n k (fun x c => w c x) := by
  intro x y hx hy bx bY bz h1 h2 h3
  funext c
  exact h c x y hx hy bx bY bz h1 h2 h3

theorem flat_apply (F : ℕ → Fin 3 → ℂ) (m : ℕ) (c : Fin 3) : flat F (3 * m + c) = F m c := by
  have e1 : (3 * m + (c : ℕ)) / 3 = m := by omega
  have e2 : (3 * m + (c : ℕ)) % 3 = c := by omega
  simp only [flat, e1, e2]

/-- The action of `writeComplexField` on one dataset. -/
theorem complex_correct {n : ℕ × ℕ × ℕ} {b : Blk} (hb : BlkOK n b) (which : ℤ) (k : Option (ℝ × ℝ × ℝ)) (c0 : ℕ → ℝ) (field : ℕ → ℂ) (G : ℕ × ℕ × ℕ → ℂ) (comp ri : ℕ)
    (hc : comp < 3) (hw : which < 0 ∨ which = comp) (hri : ri < 2)
    (hG : ∀ t : ℕ × ℕ × ℕ, t.1 < b.ld.1 → t.2.1 < b.ld.2.1 → t.2.2 < b.ld.2.2 →
      (writeComplexField n b.ld b.start which 3 k c0 field (fun _ _ _ => 0)).1 (3 * ((t.1 * b.ld.2.1 + t.2.1) * b.ld.2.2 + t.2.2) + comp) =
        G (b.start.1 + t.1, b.start.2.1 + t.2.1, b.start.2.2 + t.2.2)) :
    Correct n (fun x => part ri (G x)) b (fun d => (writeComplexField n b.ld b.start which 3 k c0 field (fun _ _ => d)).2 comp ri) := by
  have e : (fun d => (writeComplexField n b.ld b.start which 3 k c0 field (fun _ _ => d)).2 comp ri) =
      fun d => writeReal (firstDims (fieldRank n) b.ld) (firstDims (fieldRank n) b.start) (2 * 3)
        (fun a => asReal (writeComplexField n b.ld b.start which 3 k c0 field (fun _ _ _ => 0)).1 (2 * comp + ri + a)) c0 d := by
    funext d
    simp only [writeComplexField]
    rw [if_pos ⟨hc, by rcases hw with h | h <;> omega⟩]
  rw [e]
  refine write_correct hb (2 * 3) (by norm_num) _ c0 _ fun t g1 g2 g3 => ?_
  have := hG t g1 g2 g3
  revert this
  generalize (t.1 * b.ld.2.1 + t.2.1) * b.ld.2.2 + t.2.2 = m
  intro this
  simp only [asReal]
  have e1 : (2 * comp + ri + m * (2 * 3)) / 2 = 3 * m + comp := by omega
  have e2 : (2 * comp + ri + m * (2 * 3)) % 2 = ri := by omega
  rw [e1, e2, this]
  rfl

/-- C35 for vector fields, serial: for every grid, wave vector and periodic field with inversion symmetry, if the array given holds the periodic part on the stored half, then every dataset written
(component, real or imaginary part) holds the component of the Bloch field at every point of the cell. -/
theorem C35_vector (nx ny nz : ℕ) (hx : 0 < nx) (hy : 0 < ny) (hz : 0 < nz) (k : ℝ × ℝ × ℝ) (u : Fin 3 → ℤ → ℤ → ℤ → ℂ) (hu : ∀ c, Inv (nx, ny, nz) (u c))
    (which : ℤ) (c0 : ℕ → ℝ) (field : ℕ → ℂ) (hf : ∀ c, HoldsBlk (firstBlk nx ny nz) (fun x => u c x.1 x.2.1 x.2.2) (fun a => field (3 * a + c)))
    (comp : Fin 3) (ri : ℕ) (hw : which < 0 ∨ which = (comp : ℕ)) (hri : ri < 2) (d : Dataset) :
    ∃ d', runActs (actsVector nx ny nz which k c0 field comp ri) d = some d' ∧
      ∀ x, Cell (nx, ny, nz) x → d' (gridIdx (nx, ny, nz) x) = part ri (blochField (nx, ny, nz) k (u comp) x) := by
  have hn : 0 < (nx, ny, nz).1 ∧ 0 < (nx, ny, nz).2.1 ∧ 0 < (nx, ny, nz).2.2 := ⟨hx, hy, hz⟩
  set b := firstBlk nx ny nz with hb
  have hF1 : (writeComplexField (nx, ny, nz) b.ld b.start which 3 (some k) c0 field (fun _ _ _ => 0)).1 = mulPhase (nx, ny, nz) b.ld b.start k field := rfl
  have h1 : HoldsBlk b (fun x c => blochField (nx, ny, nz) k (u c) x) (triples (mulPhase (nx, ny, nz) b.ld b.start k field)) := by
    intro t g1 g2 g3
    funext c
    simp only [triples]
    rw [(mulPhase_spec (nx, ny, nz) b.ld b.start k field).1 t g1 g2 g3 _ (by omega)]
    have := hf c t g1 g2 g3
    simp only at this
    rw [this]
    rfl
  have h2 := C35_otherhalf nx ny nz hx hy hz k _ _ (law_triple fun c => law_bloch hn k (u c) (hu c)) h1
  have c1 := complex_correct (firstBlk_ok nx ny nz hx hy hz) which (some k) c0 field (blochField (nx, ny, nz) k (u comp)) comp ri comp.2 hw hri
    (fun t g1 g2 g3 => congrFun (h1 t g1 g2 g3) comp)
  have c2 := complex_correct (otherBlk_ok nx ny nz hx hy hz) which none c0 (flat (otherhalf mulV conjV nx ny nz k (triples (mulPhase (nx, ny, nz) b.ld b.start k field))))
    (blochField (nx, ny, nz) k (u comp)) comp ri comp.2 hw hri (fun t g1 g2 g3 => by
      have := congrFun (h2 t g1 g2 g3) comp
      refine Eq.trans ?_ this
      exact flat_apply _ _ _)
  obtain ⟨d', e1, e2⟩ := runActs_correct (nx, ny, nz) (fun x => part ri (blochField (nx, ny, nz) k (u comp) x)) (fun _ _ => True) (actsVector nx ny nz which k c0 field comp ri) d (by
    intro a ha
    simp only [actsVector, List.mem_cons, List.not_mem_nil, or_false] at ha
    rcases ha with rfl | rfl
    · exact ⟨_, trivial, c1⟩
    · exact ⟨_, trivial, c2⟩)
  refine ⟨d', e1, fun x hx' => e2 x hx' (Or.inl ?_)⟩
  rcases C35_once nx ny nz hx hy hz x hx' with h | h
  · exact ⟨_, List.mem_cons_self, _, h.1, c1⟩
  · exact ⟨_, List.mem_cons_of_mem _ List.mem_cons_self, _, h.1, c2⟩

/-! ### MPI -/

theorem firstBlkM_ok (nx ny nz ly ys : ℕ) (hx : 0 < nx) (hy : 0 < ny) (hz : 0 < nz) (hr : ¬ (ny = 1 ∧ nz = 1)) (hs : SlabOK ny nz ly ys) :
    IsBlock (ny, nx, nz) (firstBlkM nx ny nz ly ys).ld (firstBlkM nx ny nz ly ys).start := by
  unfold SlabOK at hs
  unfold firstBlkM IsBlock
  split_ifs at hs ⊢ <;> simp only at * <;> omega

theorem copyLen2_nonneg {nx ny nz ly ys : ℕ} (hy : 0 < ny) (hr : ¬ (ny = 1 ∧ nz = 1)) (hs : SlabOK ny nz ly ys) (h1 : nz = 1) : ¬ copyLen2 nx ny ly ys < 0 := by
  obtain ⟨hl, hl'⟩ := hs
  rw [if_pos h1] at hl'
  have : ny ≠ 1 := fun h => hr ⟨h, h1⟩
  unfold copyLen2
  rw [not_lt]
  apply mul_nonneg _ (by positivity)
  split_ifs <;> omega

/-- A process: its number of rows, its first row, its array. -/
structure Proc (A : Type) where
  ly : ℕ
  ys : ℕ
  arr : A

theorem blksM_ok (nx ny nz ly ys : ℕ) (hx : 0 < nx) (hy : 0 < ny) (hz : 0 < nz) (hr : ¬ (ny = 1 ∧ nz = 1)) (hs : SlabOK ny nz ly ys) :
    BlkOK (ny, nx, nz) (firstBlkM nx ny nz ly ys) ∧ ∀ b ∈ otherBlksM nx ny nz ly ys, BlkOK (ny, nx, nz) b.1 := by
  obtain ⟨h1, h2⟩ := hs
  constructor
  · unfold firstBlkM BlkOK IsBlock
    split_ifs at h2 ⊢ <;> simp only at * <;> omega
  · intro b hb
    unfold otherBlksM at hb
    by_cases h3 : nz = 1
    · simp only [if_pos h3, List.mem_singleton] at hb h2
      subst hb
      unfold BlkOK IsBlock
      simp only
      split_ifs <;> omega
    · simp only [if_neg h3] at hb h2
      by_cases h0 : ys = 0
      · simp only [if_pos h0, List.mem_cons, List.not_mem_nil, or_false] at hb
        rcases hb with rfl | rfl <;> unfold BlkOK IsBlock <;> simp only <;> omega
      · simp only [if_neg h0, List.mem_singleton] at hb
        subst hb
        unfold BlkOK IsBlock
        simp only
        omega

/-- Every point of the cell is in a block of some process, if the processes' rows cover the stored rows. -/
theorem coverM (nx ny nz : ℕ) (hx : 0 < nx) (hy : 0 < ny) (hz : 0 < nz) (hr : ¬ (ny = 1 ∧ nz = 1)) {A : Type} (ps : List (Proc A)) (hs : ∀ p ∈ ps, SlabOK ny nz p.ly p.ys)
    (hcov : ∀ r < (if nz = 1 then ny / 2 + 1 else ny), ∃ p ∈ ps, p.ys ≤ r ∧ r < p.ys + p.ly) (x : ℕ × ℕ × ℕ) (hc : Cell (ny, nx, nz) x) :
    ∃ p ∈ ps, InBlk (firstBlkM nx ny nz p.ly p.ys) x ∨ ∃ b ∈ otherBlksM nx ny nz p.ly p.ys, InBlk b.1 x := by
  obtain ⟨h1, h2, h3⟩ := hc
  simp only at h1 h2 h3
  by_cases hz1 : nz = 1
  · simp only [if_pos hz1] at hcov
    by_cases hlow : x.1 < ny / 2 + 1
    · obtain ⟨p, hp, g1, g2⟩ := hcov x.1 hlow
      refine ⟨p, hp, Or.inl ?_⟩
      unfold firstBlkM InBlk
      simp only [if_pos hz1]
      omega
    · obtain ⟨p, hp, g1, g2⟩ := hcov (ny - x.1) (by omega)
      refine ⟨p, hp, Or.inr ?_⟩
      obtain ⟨hl, hl'⟩ := hs p hp
      simp only [if_pos hz1] at hl'
      unfold otherBlksM InBlk
      simp only [if_pos hz1, List.mem_singleton, exists_eq_left]
      split_ifs <;> omega
  · simp only [if_neg hz1] at hcov
    by_cases hlow : x.2.2 < nz / 2 + 1
    · obtain ⟨p, hp, g1, g2⟩ := hcov x.1 h1
      refine ⟨p, hp, Or.inl ?_⟩
      unfold firstBlkM InBlk
      simp only [if_neg hz1]
      omega
    · by_cases hx0 : x.1 = 0
      · obtain ⟨p, hp, g1, g2⟩ := hcov 0 (by omega)
        refine ⟨p, hp, Or.inr ?_⟩
        have h0 : p.ys = 0 := by omega
        unfold otherBlksM InBlk
        simp only [if_neg hz1, if_pos h0]
        exact ⟨_, List.mem_cons_of_mem _ List.mem_cons_self, by simp only; omega, by simp only; omega, by simp only; omega⟩
      · obtain ⟨p, hp, g1, g2⟩ := hcov (ny - x.1) (by omega)
        refine ⟨p, hp, Or.inr ?_⟩
        obtain ⟨hl, hl'⟩ := hs p hp
        simp only [if_neg hz1] at hl'
        unfold otherBlksM InBlk
        by_cases h0 : p.ys = 0
        · simp only [if_neg hz1, if_pos h0]
          exact ⟨_, List.mem_cons_self, by simp only; omega, by simp only; omega, by simp only; omega⟩
        · simp only [if_neg hz1, if_neg h0, List.mem_singleton, exists_eq_left]
          omega

/-- C35 for vector fields with MPI: the processes hold any slabs of rows covering the stored rows; `writes` is any sequence of writes, in any order, in which every write of every process occurs and no
other; then the dataset holds the Bloch field at every point of the (transposed) cell. -/
theorem C35_vector_mpi_partial (nx ny nz : ℕ) (hx : 0 < nx) (hy : 0 < ny) (hz : 0 < nz) (hr : ¬ (ny = 1 ∧ nz = 1)) (k : ℝ × ℝ × ℝ) (u : Fin 3 → ℤ → ℤ → ℤ → ℂ)
    (hu : ∀ c, Inv (ny, nx, nz) (u c)) (which : ℤ) (c0 : ℕ → ℝ) (ps : List (Proc (ℕ → ℂ))) (hs : ∀ p ∈ ps, SlabOK ny nz p.ly p.ys)
    (hcov : ∀ r < (if nz = 1 then ny / 2 + 1 else ny), ∃ p ∈ ps, p.ys ≤ r ∧ r < p.ys + p.ly)
    (hf : ∀ p ∈ ps, ∀ c : Fin 3, HoldsBlk (firstBlkM nx ny nz p.ly p.ys) (fun x => u c x.1 x.2.1 x.2.2) (fun a => p.arr (3 * a + c)))
    (comp : Fin 3) (ri : ℕ) (hw : which < 0 ∨ which = (comp : ℕ)) (hri : ri < 2) :
    (∀ p ∈ ps, (actsVectorM nx ny nz p.ly p.ys which k c0 p.arr comp ri).isSome) ∧
    ∀ writes : List Act, (∀ a, a ∈ writes ↔ ∃ p ∈ ps, ∃ as, actsVectorM nx ny nz p.ly p.ys which k c0 p.arr comp ri = some as ∧ a ∈ as) →
      ∀ d : Dataset, ∃ d', runActs writes d = some d' ∧ ∀ x, Cell (ny, nx, nz) x → d' (gridIdx (ny, nx, nz) x) = part ri (blochField (ny, nx, nz) k (u comp) x) := by
  have hn : 0 < (ny, nx, nz).1 ∧ 0 < (ny, nx, nz).2.1 ∧ 0 < (ny, nx, nz).2.2 := ⟨hy, hx, hz⟩
  have key : ∀ p ∈ ps, ∃ F : ℕ → Fin 3 → ℂ,
      actsVectorM nx ny nz p.ly p.ys which k c0 p.arr comp ri = some
        ((fun d => (writeComplexField (ny, nx, nz) (firstBlkM nx ny nz p.ly p.ys).ld (firstBlkM nx ny nz p.ly p.ys).start which 3 (some k) c0 p.arr (fun _ _ => d)).2 comp ri) ::
          (otherBlksM nx ny nz p.ly p.ys).map fun b' => fun d =>
            (writeComplexField (ny, nx, nz) b'.1.ld b'.1.start which 3 none c0 (fun a => flat F (3 * b'.2 + a)) (fun _ _ => d)).2 comp ri) ∧
      Correct (ny, nx, nz) (fun x => part ri (blochField (ny, nx, nz) k (u comp) x)) (firstBlkM nx ny nz p.ly p.ys)
        (fun d => (writeComplexField (ny, nx, nz) (firstBlkM nx ny nz p.ly p.ys).ld (firstBlkM nx ny nz p.ly p.ys).start which 3 (some k) c0 p.arr (fun _ _ => d)).2 comp ri) ∧
      ∀ b' ∈ otherBlksM nx ny nz p.ly p.ys, Correct (ny, nx, nz) (fun x => part ri (blochField (ny, nx, nz) k (u comp) x)) b'.1
        (fun d => (writeComplexField (ny, nx, nz) b'.1.ld b'.1.start which 3 none c0 (fun a => flat F (3 * b'.2 + a)) (fun _ _ => d)).2 comp ri) := by
    intro p hp
    set b := firstBlkM nx ny nz p.ly p.ys with hb
    obtain ⟨ok1, ok2⟩ := blksM_ok nx ny nz p.ly p.ys hx hy hz hr (hs p hp)
    have h1 : HoldsBlk b (fun x c => blochField (ny, nx, nz) k (u c) x) (triples (mulPhase (ny, nx, nz) b.ld b.start k p.arr)) := by
      intro t g1 g2 g3
      funext c
      simp only [triples]
      rw [(mulPhase_spec (ny, nx, nz) b.ld b.start k p.arr).1 t g1 g2 g3 _ (by omega)]
      have := hf p hp c t g1 g2 g3
      simp only at this
      rw [this]
      rfl
    obtain ⟨F, hF, h2⟩ := C35_otherhalf_mpi_partial nx ny nz p.ly p.ys hx hy hz hr (hs p hp) k _ _ (law_triple fun c => law_bloch hn k (u c) (hu c)) h1
    refine ⟨F, ?_, ?_, ?_⟩
    · have : actsVectorM nx ny nz p.ly p.ys which k c0 p.arr comp ri = (otherhalfM mulV conjV nx ny nz p.ly p.ys k
        (triples (mulPhase (ny, nx, nz) b.ld b.start k p.arr))).map _ := if_neg (fun h => copyLen2_nonneg hy hr (hs p hp) h.1 h.2)
      rw [this, hF]
      rfl
    · exact complex_correct ok1 which (some k) c0 p.arr (blochField (ny, nx, nz) k (u comp)) comp ri comp.2 hw hri (fun t g1 g2 g3 => congrFun (h1 t g1 g2 g3) comp)
    · intro b' hb'
      refine complex_correct (ok2 b' hb') which none c0 _ (blochField (ny, nx, nz) k (u comp)) comp ri comp.2 hw hri (fun t g1 g2 g3 => ?_)
      have := congrFun (h2 b' hb' t g1 g2 g3) comp
      refine Eq.trans ?_ this
      refine Eq.trans (congrArg (flat F) ?_) (flat_apply F _ comp)
      ring
  refine ⟨fun p hp => ?_, fun writes hwr d => ?_⟩
  · obtain ⟨F, e, -⟩ := key p hp
    rw [e]; rfl
  · obtain ⟨d', e1, e2⟩ := runActs_correct (ny, nx, nz) (fun x => part ri (blochField (ny, nx, nz) k (u comp) x)) (fun _ _ => True) writes d (by
      intro a ha
      obtain ⟨p, hp, as, has, ha⟩ := (hwr a).1 ha
      obtain ⟨F, e, c1, c2⟩ := key p hp
      rw [e] at has
      injection has with has
      subst has
      rcases List.mem_cons.1 ha with rfl | ha
      · exact ⟨_, trivial, c1⟩
      · obtain ⟨b', hb', rfl⟩ := List.mem_map.1 ha
        exact ⟨_, trivial, c2 b' hb'⟩)
    refine ⟨d', e1, fun x hx' => e2 x hx' (Or.inl ?_)⟩
    obtain ⟨p, hp, h⟩ := coverM nx ny nz hx hy hz hr ps hs hcov x hx'
    obtain ⟨F, e, c1, c2⟩ := key p hp
    rcases h with h | ⟨b', hb', h⟩
    · exact ⟨_, (hwr _).2 ⟨p, hp, _, e, List.mem_cons_self⟩, _, h, c1⟩
    · exact ⟨_, (hwr _).2 ⟨p, hp, _, e, List.mem_cons_of_mem _ (List.mem_map_of_mem hb')⟩, _, h, c2 b' hb'⟩

/-- C35 for real scalar fields with MPI. -/
theorem C35_scalar_mpi_partial (nx ny nz : ℕ) (hx : 0 < nx) (hy : 0 < ny) (hz : 0 < nz) (hr : ¬ (ny = 1 ∧ nz = 1)) (w : ℕ × ℕ × ℕ → ℝ)
    (hlaw : Law (fun _ v => v) (fun v => v) (ny, nx, nz) (0, 0, 0) w) (c0 : ℕ → ℝ) (ps : List (Proc (ℕ → ℝ))) (hs : ∀ p ∈ ps, SlabOK ny nz p.ly p.ys)
    (hcov : ∀ r < (if nz = 1 then ny / 2 + 1 else ny), ∃ p ∈ ps, p.ys ≤ r ∧ r < p.ys + p.ly) (hf : ∀ p ∈ ps, HoldsBlk (firstBlkM nx ny nz p.ly p.ys) w p.arr) :
    (∀ p ∈ ps, (actsScalarM nx ny nz p.ly p.ys c0 p.arr).isSome) ∧
    ∀ writes : List Act, (∀ a, a ∈ writes ↔ ∃ p ∈ ps, ∃ as, actsScalarM nx ny nz p.ly p.ys c0 p.arr = some as ∧ a ∈ as) →
      ∀ d : Dataset, ∃ d', runActs writes d = some d' ∧ ∀ x, Cell (ny, nx, nz) x → d' (gridIdx (ny, nx, nz) x) = w x := by
  have key : ∀ p ∈ ps, ∃ F : ℕ → ℝ,
      actsScalarM nx ny nz p.ly p.ys c0 p.arr = some
        (writeRealVals (ny, nx, nz) (firstBlkM nx ny nz p.ly p.ys).ld (firstBlkM nx ny nz p.ly p.ys).start c0 p.arr ::
          (otherBlksM nx ny nz p.ly p.ys).map fun b' => writeRealVals (ny, nx, nz) b'.1.ld b'.1.start c0 (fun a => F (b'.2 + a))) ∧
      Correct (ny, nx, nz) w (firstBlkM nx ny nz p.ly p.ys) (writeRealVals (ny, nx, nz) (firstBlkM nx ny nz p.ly p.ys).ld (firstBlkM nx ny nz p.ly p.ys).start c0 p.arr) ∧
      ∀ b' ∈ otherBlksM nx ny nz p.ly p.ys, Correct (ny, nx, nz) w b'.1 (writeRealVals (ny, nx, nz) b'.1.ld b'.1.start c0 (fun a => F (b'.2 + a))) := by
    intro p hp
    obtain ⟨ok1, ok2⟩ := blksM_ok nx ny nz p.ly p.ys hx hy hz hr (hs p hp)
    obtain ⟨F, hF, h2⟩ := C35_otherhalf_mpi_partial nx ny nz p.ly p.ys hx hy hz hr (hs p hp) (0, 0, 0) w _ hlaw (hf p hp)
    refine ⟨F, ?_, ?_, ?_⟩
    · unfold actsScalarM
      simp only
      rw [hF]
      rfl
    · exact write_correct ok1 1 le_rfl p.arr c0 w (fun t g1 g2 g3 => by rw [mul_one]; exact hf p hp t g1 g2 g3)
    · intro b' hb'
      exact write_correct (ok2 b' hb') 1 le_rfl (fun a => F (b'.2 + a)) c0 w (fun t g1 g2 g3 => by rw [mul_one]; exact h2 b' hb' t g1 g2 g3)
  refine ⟨fun p hp => ?_, fun writes hwr d => ?_⟩
  · obtain ⟨F, e, -⟩ := key p hp
    rw [e]; rfl
  · obtain ⟨d', e1, e2⟩ := runActs_correct (ny, nx, nz) w (fun _ _ => True) writes d (by
      intro a ha
      obtain ⟨p, hp, as, has, ha⟩ := (hwr a).1 ha
      obtain ⟨F, e, c1, c2⟩ := key p hp
      rw [e] at has
      injection has with has
      subst has
      rcases List.mem_cons.1 ha with rfl | ha
      · exact ⟨_, trivial, c1⟩
      · obtain ⟨b', hb', rfl⟩ := List.mem_map.1 ha
        exact ⟨_, trivial, c2 b' hb'⟩)
    refine ⟨d', e1, fun x hx' => e2 x hx' (Or.inl ?_)⟩
    obtain ⟨p, hp, h⟩ := coverM nx ny nz hx hy hz hr ps hs hcov x hx'
    obtain ⟨F, e, c1, c2⟩ := key p hp
    rcases h with h | ⟨b', hb', h⟩
    · exact ⟨_, (hwr _).2 ⟨p, hp, _, e, List.mem_cons_self⟩, _, h, c1⟩
    · exact ⟨_, (hwr _).2 ⟨p, hp, _, e, List.mem_cons_of_mem _ (List.mem_map_of_mem hb')⟩, _, h, c2 b' hb'⟩

/-- C35 is false when a process holds no rows (more processes than rows; FFTW then sets `local_y_start` to 0): the output of a vector field kills that process in any grid, and with it the run; the
output of a scalar field does so in three dimensions. -/
theorem C35_idle_refuted (nx ny nz : ℕ) (hx : 0 < nx) (hr : ¬ (ny = 1 ∧ nz = 1)) (which : ℤ) (k : ℝ × ℝ × ℝ) (c0 : ℕ → ℝ) (field : ℕ → ℂ) (vals : ℕ → ℝ) (comp ri : ℕ) :
    actsVectorM nx ny nz 0 0 which k c0 field comp ri = none ∧ (nz ≠ 1 → actsScalarM nx ny nz 0 0 c0 vals = none) := by
  have h3 : nz ≠ 1 → rank nx ny nz = 3 := fun h => by unfold rank; rw [if_neg h]
  refine ⟨?_, fun h => ?_⟩
  · unfold actsVectorM
    by_cases h : nz = 1
    · rw [if_pos]
      refine ⟨h, ?_⟩
      unfold copyLen2
      simp
      omega
    · rw [if_neg (fun g => h g.1)]
      unfold otherhalfM
      rw [if_pos (h3 h)]
      simp
  · unfold actsScalarM otherhalfM
    rw [if_pos (h3 h)]
    simp

/-- A field with the symmetry that is not constant: a plane wave. -/
example : ∃ u : ℤ → ℤ → ℤ → ℂ, Inv (5, 4, 3) u ∧ u 1 0 0 ≠ u 0 0 0 := by
  refine ⟨fun x _ _ => Complex.exp (2 * Real.pi * Complex.I * x / 5), ⟨?_, ?_, ?_, ?_⟩, ?_⟩
  · intro x y z
    simp only
    rw [show (2 * Real.pi * Complex.I * ((x + (5 : ℕ) : ℤ) : ℂ) / 5 : ℂ) = 2 * Real.pi * Complex.I * x / 5 + 2 * Real.pi * Complex.I by push_cast; ring,
      Complex.exp_add, Complex.exp_two_pi_mul_I, mul_one]
  · intro x y z; rfl
  · intro x y z; rfl
  · intro x y z
    rw [← Complex.exp_conj]
    congr 1
    simp only [map_div₀, map_mul, Complex.conj_ofReal, Complex.conj_I, map_ofNat, Int.cast_neg, map_intCast]
    ring
  · simp only [Int.cast_one, Int.cast_zero, mul_zero, zero_div, Complex.exp_zero, mul_one]
    intro h
    rw [Complex.exp_eq_one_iff] at h
    obtain ⟨n, hn⟩ := h
    have h2 : (2 * Real.pi * Complex.I : ℂ) ≠ 0 := Complex.two_pi_I_ne_zero
    have : (1 : ℂ) / 5 = n := by
      have : (2 * Real.pi * Complex.I : ℂ) * (1 / 5) = (2 * Real.pi * Complex.I) * n := by rw [mul_one_div, hn]; ring
      exact mul_left_cancel₀ h2 this
    have h5 : ((5 * n : ℤ) : ℂ) = ((1 : ℤ) : ℂ) := by push_cast; rw [← this]; norm_num
    have := Int.cast_injective h5
    omega

/-- Processes covering the rows. -/
example : (∀ p ∈ [(⟨3, 0, ()⟩ : Proc Unit), ⟨2, 3, ()⟩], SlabOK 5 4 p.ly p.ys) ∧ (∀ r < 5, ∃ p ∈ [(⟨3, 0, ()⟩ : Proc Unit), ⟨2, 3, ()⟩], p.ys ≤ r ∧ r < p.ys + p.ly) := by
  refine ⟨?_, ?_⟩
  · intro p hp; simp at hp; rcases hp with rfl | rfl <;> simp [SlabOK]
  · decide

end Mpb.Half

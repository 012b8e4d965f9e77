import Verif.MatGrid.ToolsModel
import Verif.MatGrid.GradProps

/-! # Randomising, saving and loading material grids (C54, C71, C72) -/

namespace Mpb.MatGrid

open Spec Mpb.Spec

/-- Specification: `v` is the image of `u` in `[0, 1]` under reflections at 0 and 1 (the reflections generate the maps
`u ↦ ±u + 2k`). -/
def Spec.IsMirror (u v : ℝ) : Prop := 0 ≤ v ∧ v ≤ 1 ∧ ∃ k : ℤ, v = u + 2 * k ∨ v = -u + 2 * k

theorem bounce_neg {u : ℝ} (h : u < 0) : bounce u = -u := by
  unfold bounce
  have : ¬ u > 1 := by linarith
  simp [this, h]

theorem bounce_big {u : ℝ} (h : 1 < u) : bounce u = u - 1 := by
  unfold bounce
  have : 1 - u < 0 := by linarith
  simp [h, this]

theorem bounceLoop_in {u : ℝ} (h0 : 0 ≤ u) (h1 : u ≤ 1) (fuel : ℕ) : bounceLoop fuel u = some u := by
  have : ¬ (u < 0 ∨ u > 1) := by
    rintro (h | h) <;> linarith
  cases fuel <;> simp only [bounceLoop] <;> rw [if_neg this]

theorem bounceLoop_succ {u : ℝ} (h : u < 0 ∨ u > 1) (fuel : ℕ) : bounceLoop (fuel + 1) u = bounceLoop fuel (bounce u) := by
  simp only [bounceLoop]
  rw [if_pos h]

theorem bounceLoop_mono : ∀ (f : ℕ) (x a : ℝ), bounceLoop f x = some a → ∀ g, f ≤ g → bounceLoop g x = some a := by
  intro f x a h g hg
  have aux : ∀ (f : ℕ) (x a : ℝ), bounceLoop f x = some a → bounceLoop (f + 1) x = some a := by
    intro f
    induction f with
    | zero =>
      intro x a ha
      by_cases hx : x < 0 ∨ x > 1
      · simp only [bounceLoop] at ha; rw [if_pos hx] at ha; cases ha
      · push Not at hx
        rw [bounceLoop_in hx.1 hx.2] at ha ⊢
        exact ha
    | succ f ih =>
      intro x a ha
      by_cases hx : x < 0 ∨ x > 1
      · rw [bounceLoop_succ hx] at ha ⊢
        exact ih _ _ ha
      · push Not at hx
        rw [bounceLoop_in hx.1 hx.2] at ha ⊢
        exact ha
  induction g with
  | zero => obtain rfl : f = 0 := by omega
            exact h
  | succ g ih =>
    rcases Nat.lt_or_ge g f with hl | hl
    · obtain rfl : f = g + 1 := by omega
      exact h
    · exact aux g x a (ih hl)

/-- The loop ends after at most `n` iterations for `0 ≤ u ≤ n + 1`, and only integers are subtracted. -/
theorem bounceLoop_nonneg (n : ℕ) : ∀ (u : ℝ), 0 ≤ u → u ≤ n + 1 →
    ∃ v, bounceLoop n u = some v ∧ 0 ≤ v ∧ v ≤ 1 ∧ (u ≤ 1 → v = u) ∧ (1 < u → 0 < v) ∧ ∃ k : ℕ, v = u - k := by
  induction n with
  | zero =>
    intro u h0 h1
    have h1 : u ≤ 1 := by simpa using h1
    exact ⟨u, bounceLoop_in h0 h1 0, h0, h1, fun _ => rfl, fun h => by linarith, 0, by simp⟩
  | succ n ih =>
    intro u h0 h1
    by_cases h : u ≤ 1
    · exact ⟨u, bounceLoop_in h0 h _, h0, h, fun _ => rfl, fun h => by linarith, 0, by simp⟩
    · have h : 1 < u := not_le.1 h
      obtain ⟨v, e, v0, v1, a, b, k, hk⟩ := ih (u - 1) (by linarith) (by push_cast at h1; linarith)
      refine ⟨v, ?_, v0, v1, fun h' => by linarith, fun _ => ?_, k + 1, ?_⟩
      · rw [bounceLoop_succ (.inr h), bounce_big h, e]
      · rcases le_or_gt (u - 1) 1 with h' | h'
        · rw [a h']; linarith
        · exact b h'
      · rw [hk]; push_cast; ring

/-- C54: the inner loop ends for every number `u`, with a number in `[0, 1]`: `|u|` if that is in `[0, 1]`, and otherwise the number in
`(0, 1]` that differs from `|u|` by an integer. -/
theorem C54_terminates (u : ℝ) : ∃ N v, (∀ fuel, N ≤ fuel → bounceLoop fuel u = some v) ∧ 0 ≤ v ∧ v ≤ 1 ∧ (|u| ≤ 1 → v = |u|) ∧
    (1 < |u| → 0 < v) ∧ ∃ k : ℕ, v = |u| - k := by
  obtain ⟨n, hn⟩ := exists_nat_ge |u|
  obtain ⟨v, e, hv⟩ := bounceLoop_nonneg n |u| (abs_nonneg u) (by linarith)
  refine ⟨n + 1, v, fun fuel hf => bounceLoop_mono (n + 1) u v ?_ fuel hf, hv⟩
  rcases lt_or_ge u 0 with h | h
  · rw [bounceLoop_succ (.inl h), bounce_neg h, ← abs_of_neg h, e]
  · rw [abs_of_nonneg h] at e
    exact bounceLoop_mono n u v e (n + 1) (by omega)

/-- C54: a number within a distance 1 below the range is reflected: the value left is the mirror image. (Above the range the code
subtracts 1 instead: `C54_mirror_refuted`.) -/
theorem C54_mirror_partial (u : ℝ) (h : -1 ≤ u ∧ u ≤ 1) : ∃ v, bounceLoop 1 u = some v ∧ IsMirror u v := by
  rcases lt_or_ge u 0 with h' | h'
  · refine ⟨-u, ?_, by linarith, by linarith [h.1], 0, .inr (by simp)⟩
    rw [bounceLoop_succ (.inl h'), bounce_neg h', bounceLoop_in (by linarith) (by linarith [h.1])]
  · exact ⟨u, bounceLoop_in h' h.2 1, h', h.2, 0, .inl (by simp)⟩

/-- C54 fails above the range: a number `u` between 1 and 2 becomes `u - 1`, the periodic and not the mirror image (unless `u = 3/2`). -/
theorem C54_mirror_refuted (u : ℝ) (h : 1 < u ∧ u < 2) (h' : u ≠ 3 / 2) : ∃ v, bounceLoop 1 u = some v ∧ v = u - 1 ∧ ¬ IsMirror u v ∧
    IsMirror u (2 - u) := by
  refine ⟨u - 1, ?_, rfl, ?_, by linarith [h.2], by linarith [h.1], 1, .inr (by push_cast; ring)⟩
  · rw [bounceLoop_succ (.inr h.1), bounce_big h.1, bounceLoop_in (by linarith [h.1]) (by linarith [h.2])]
  · rintro ⟨-, -, k, e | e⟩
    · have : (2 * k : ℤ) = -1 := by
        have : (2 * k : ℝ) = -1 := by linarith
        exact_mod_cast this
      omega
    · have e2 : 2 * u = 2 * k + 1 := by linarith
      have h1 : ((2 : ℤ) : ℝ) < ((2 * k + 1 : ℤ) : ℝ) := by push_cast; linarith [h.1]
      have h2 : ((2 * k + 1 : ℤ) : ℝ) < ((4 : ℤ) : ℝ) := by push_cast; linarith [h.2]
      have h1 := Int.cast_lt.1 h1
      have h2 := Int.cast_lt.1 h2
      obtain rfl : k = 1 := by omega
      apply h'
      push_cast at e2
      linarith

/-- The concrete case: 0.9 with a perturbation of 0.4 becomes 0.3, not 0.7. -/
theorem C54_example_refuted : bounceLoop 1 (perturb 0.9 0.4 1) = some 0.3 ∧ IsMirror (perturb 0.9 0.4 1) 0.7 ∧
    ¬ IsMirror (perturb 0.9 0.4 1) 0.3 := by
  have e : perturb 0.9 0.4 1 = 1.3 := by unfold perturb; norm_num
  obtain ⟨v, h1, rfl, h3, h4⟩ := C54_mirror_refuted 1.3 (by norm_num) (by norm_num)
  rw [e]
  have a : (1.3 : ℝ) - 1 = 0.3 := by norm_num
  have b : (2 : ℝ) - 1.3 = 0.7 := by norm_num
  rw [a] at h1 h3
  rw [b] at h4
  exact ⟨h1, h4, h3⟩

theorem randomizeLoop_ok (noise : ℝ) : ∀ (vs rs : List ℝ), vs.length ≤ rs.length → ∃ N, ∀ fuel, N ≤ fuel → ∃ us,
    randomizeLoop fuel noise vs rs = some us ∧ us.length = vs.length ∧ (∀ u ∈ us, 0 ≤ u ∧ u ≤ 1) ∧
      ∀ i (h : i < us.length) (hv : i < vs.length) (hr : i < rs.length), |perturb vs[i] noise rs[i]| ≤ 1 →
        us[i] = |perturb vs[i] noise rs[i]| := by
  intro vs
  induction vs with
  | nil =>
    intro rs _
    exact ⟨0, fun fuel _ => ⟨[], by simp [randomizeLoop], rfl, by simp, by simp⟩⟩
  | cons v vs ih =>
    intro rs hl
    cases rs with
    | nil => simp at hl
    | cons r rs =>
      obtain ⟨N1, h1⟩ := ih rs (by simpa using hl)
      obtain ⟨N2, w, h2, w0, w1, hk, -⟩ := C54_terminates (perturb v noise r)
      refine ⟨max N1 N2, fun fuel hf => ?_⟩
      obtain ⟨us, e1, e2, e3, e4⟩ := h1 fuel (le_trans (le_max_left _ _) hf)
      refine ⟨w :: us, ?_, by simp [e2], ?_, ?_⟩
      · simp only [randomizeLoop]
        rw [h2 fuel (le_trans (le_max_right _ _) hf), e1]
        rfl
      · intro u hu
        rcases List.mem_cons.1 hu with rfl | hu
        · exact ⟨w0, w1⟩
        · exact e3 u hu
      · intro i h hv hr
        cases i with
        | zero => exact hk
        | succ i => exact e4 i (by simpa using h) (by simpa using hv) (by simpa using hr)

/-- C54: `randomize-material-grid!` ends for every grid, noise and sequence of random numbers; afterwards every process holds the same
numbers, as many as before, all in `[0, 1]`; where the sum `v + noise * (2 r - 1)` of the old number and the perturbation is in
`[-1, 1]`, the new number is its absolute value. -/
theorem C54_randomize {P : ℕ} (noise : ℝ) (rs : List ℝ) (grids : Fin (P + 1) → List ℝ) (hr : (grids 0).length ≤ rs.length) :
    ∃ N, ∀ fuel, N ≤ fuel → ∃ out, randomize fuel noise rs grids = some out ∧ (∀ p q, out p = out q) ∧
      ∀ p, (out p).length = (grids 0).length ∧ (∀ u ∈ out p, 0 ≤ u ∧ u ≤ 1) ∧
        ∀ i (h : i < (out p).length) (hv : i < (grids 0).length) (hr : i < rs.length),
          |(grids 0)[i] + noise * (2 * rs[i] - 1)| ≤ 1 → (out p)[i] = |(grids 0)[i] + noise * (2 * rs[i] - 1)| := by
  obtain ⟨N, h⟩ := randomizeLoop_ok noise (grids 0) rs hr
  refine ⟨N, fun fuel hf => ?_⟩
  obtain ⟨us, e1, e2, e3, e4⟩ := h fuel hf
  refine ⟨fun _ => us, by unfold randomize; rw [e1]; rfl, fun _ _ => rfl, fun p => ⟨e2, e3, ?_⟩⟩
  intro i hi hv hr' h1
  have e : (grids 0)[i] + noise * (2 * rs[i] - 1) = perturb (grids 0)[i] noise rs[i] := by unfold perturb; ring
  rw [e] at h1 ⊢
  exact e4 i hi hv hr' h1

/-- Non-vacuity: a grid of two numbers on two processes. -/
example : ∃ (grids : Fin (1 + 1) → List ℝ) (rs : List ℝ), (grids 0).length ≤ rs.length ∧ 0 < (grids 0).length :=
  ⟨fun _ => [0.5, 0.9], [0, 1], by simp⟩

/-! ## Saving and loading -/

theorem fileDims_save (nx ny nz : ℕ) (grid : Arr) : fileDims (saveGrid nx ny nz grid).dims = some (nx, ny, nz) := by
  unfold saveGrid
  by_cases h1 : nz = 1
  · by_cases h2 : ny = 1
    · subst h1; subst h2; simp [fileDims]
    · subst h1; simp [h2, fileDims]
  · simp [h1, fileDims]

theorem mem_pixels {nx ny nz : ℕ} {p : ℕ × ℕ × ℕ} : p ∈ pixels nx ny nz ↔ p.1 < nx ∧ p.2.1 < ny ∧ p.2.2 < nz := by
  obtain ⟨a, b, c⟩ := p
  unfold pixels
  simp only [List.mem_flatMap, List.mem_range, List.mem_map, Prod.mk.injEq]
  constructor
  · rintro ⟨x, hx, y, hy, z, hz, rfl, rfl, rfl⟩
    exact ⟨hx, hy, hz⟩
  · rintro ⟨hx, hy, hz⟩
    exact ⟨a, hx, b, hy, c, hz, rfl, rfl, rfl⟩

/-- The position of a pixel's number. -/
def pix (ny nz : ℕ) (p : ℕ × ℕ × ℕ) : ℕ := (p.1 * ny + p.2.1) * nz + p.2.2

theorem pix_inj {ny nz : ℕ} {p q : ℕ × ℕ × ℕ} (hp : p.2.1 < ny ∧ p.2.2 < nz) (hq : q.2.1 < ny ∧ q.2.2 < nz) (h : pix ny nz p = pix ny nz q) :
    p = q := by
  obtain ⟨a, b, c⟩ := p
  obtain ⟨a', b', c'⟩ := q
  unfold pix at h
  simp only at h hp hq
  have hc : c = c' := by
    have := congrArg (· % nz) h
    simp only [Nat.mul_add_mod_self_right] at this
    rwa [Nat.mod_eq_of_lt hp.2, Nat.mod_eq_of_lt hq.2] at this
  subst hc
  have h2 : a * ny + b = a' * ny + b' := Nat.eq_of_mul_eq_mul_right (by omega : 0 < nz) (by omega)
  have hb : b = b' := by
    have := congrArg (· % ny) h2
    simp only [Nat.mul_add_mod_self_right] at this
    rwa [Nat.mod_eq_of_lt hp.1, Nat.mod_eq_of_lt hq.1] at this
  subst hb
  have : a = a' := Nat.eq_of_mul_eq_mul_right (by omega : 0 < ny) (by omega)
  rw [this]

theorem pix_lt {nx ny nz : ℕ} {p : ℕ × ℕ × ℕ} (hp : p.1 < nx ∧ p.2.1 < ny ∧ p.2.2 < nz) : pix ny nz p < nx * ny * nz := by
  obtain ⟨a, b, c⟩ := p
  unfold pix
  simp only at hp ⊢
  have h1 : a * ny + b + 1 ≤ nx * ny := by nlinarith
  nlinarith

/-- Writing a list of pixels. -/
theorem foldlM_write {f : ℕ × ℕ × ℕ → ℝ} {val : ℕ × ℕ × ℕ → Option ℝ} {idx : ℕ × ℕ × ℕ → ℕ} :
    ∀ (L : List (ℕ × ℕ × ℕ)) (a : Arr), (∀ p ∈ L, val p = some (f p)) → (∀ p ∈ L, idx p < a.len) →
      (∀ p ∈ L, ∀ q ∈ L, idx p = idx q → p = q) →
      ∃ b, L.foldlM (fun g p => do let v ← val p; Arr.write g (idx p) v) a = some b ∧ b.len = a.len ∧ (∀ p ∈ L, b.get (idx p) = f p) ∧
        ∀ j, (∀ p ∈ L, idx p ≠ j) → b.get j = a.get j := by
  intro L
  induction L with
  | nil => intro a _ _ _; exact ⟨a, rfl, rfl, by simp, by simp⟩
  | cons p L ih =>
    intro a h1 h2 h3
    obtain ⟨b, e, l, g, k⟩ := ih ⟨a.len, Function.update a.get (idx p) (f p)⟩ (fun q hq => h1 q (List.mem_cons_of_mem _ hq))
      (fun q hq => h2 q (List.mem_cons_of_mem _ hq)) (fun q hq r hr => h3 q (List.mem_cons_of_mem _ hq) r (List.mem_cons_of_mem _ hr))
    refine ⟨b, ?_, l, ?_, ?_⟩
    · rw [List.foldlM_cons, h1 p (by simp)]
      simp only [Option.bind_eq_bind, Option.bind_some, Arr.write, if_pos (h2 p (by simp))]
      exact e
    · intro q hq
      rcases List.mem_cons.1 hq with rfl | hq
      · by_cases hm : ∃ r ∈ L, idx r = idx q
        · obtain ⟨r, hr, e⟩ := hm
          have := h3 r (List.mem_cons_of_mem _ hr) q (by simp) e
          subst this
          exact g r hr
        · push Not at hm
          rw [k _ hm]
          simp
      · exact g q hq
    · intro j hj
      rw [k j (fun q hq => hj q (List.mem_cons_of_mem _ hq))]
      exact Function.update_of_ne (Ne.symm (hj p (by simp))) _ _

theorem modf_nonneg {a : ℝ} (h : 0 ≤ a) : modf a = Int.fract a := by
  unfold modf
  rw [truncZ_nonneg h]
  rfl

theorem superSize_pos (s : ℝ) : 0 < superSize s := by
  unfold superSize
  split_ifs with h
  · exact h
  · norm_num

theorem loadCoord_eq (i n : ℕ) (s : ℝ) : loadCoord i n s = Int.fract ((i + 1 / 2) * superSize s / n) := by
  have h := superSize_pos s
  unfold loadCoord
  rw [modf_nonneg (by positivity)]
  congr 1
  norm_num
  ring

theorem clamp_mem (v : ℝ) : 0 ≤ clamp v ∧ clamp v ≤ 1 := by
  unfold clamp
  split_ifs with h1 h2 <;> constructor <;> linarith

theorem clamp_id {v : ℝ} (h : 0 ≤ v ∧ v ≤ 1) : clamp v = v := by
  unfold clamp
  rw [if_neg (by linarith [h.2]), if_neg (by linarith [h.1])]

/-- C72: loading a file of any size into a grid of any size gives every pixel the interpolated value of the file's data at the pixel's
centre (periodically repeated for a supercell), limited to `[0, 1]`; nothing beyond the grid's numbers changes. -/
theorem C72_load (nx ny nz dx dy dz : ℕ) (grid data : Arr) (dims : List ℕ) (s : V3 ℝ) (hd : fileDims dims = some (dx, dy, dz))
    (hx : 0 < dx) (hy : 0 < dy) (hz : 0 < dz) (hl : dx * dy * dz ≤ data.len) (hg : nx * ny * nz ≤ grid.len) :
    ∃ out, loadGrid nx ny nz grid ⟨dims, data⟩ s = some out ∧ out.len = grid.len ∧
      (∀ ix iy iz, ix < nx → iy < ny → iz < nz → out.get ((ix * ny + iy) * nz + iz) =
        clamp (mirrorInterp data dx dy dz 1 ⟨Int.fract ((ix + 1 / 2) * superSize s.x / nx), Int.fract ((iy + 1 / 2) * superSize s.y / ny),
          Int.fract ((iz + 1 / 2) * superSize s.z / nz)⟩)) ∧
      ∀ j, nx * ny * nz ≤ j → out.get j = grid.get j := by
  have h := fun x : ℝ => (⟨by linarith [Int.fract_nonneg x], (Int.fract_lt_one x).le⟩ : -1 ≤ Int.fract x ∧ Int.fract x ≤ 1)
  obtain ⟨out, e, l, g, k⟩ := foldlM_write (f := fun p => clamp (mirrorInterp data dx dy dz 1 ⟨Int.fract ((p.1 + 1 / 2) * superSize s.x / nx),
      Int.fract ((p.2.1 + 1 / 2) * superSize s.y / ny), Int.fract ((p.2.2 + 1 / 2) * superSize s.z / nz)⟩))
    (val := loadVal (dx, dy, dz) data nx ny nz s) (idx := pix ny nz) (pixels nx ny nz) grid
    (by
      intro p _
      unfold loadVal
      simp only [loadCoord_eq]
      rw [C49_interp_partial _ _ _ _ _ _ hx hy hz (by omega) (by simpa using hl) (h _) (h _) (h _)]
      rfl)
    (by
      intro p hp
      exact lt_of_lt_of_le (pix_lt (mem_pixels.1 hp)) hg)
    (by
      intro p hp q hq e
      exact pix_inj (mem_pixels.1 hp).2 (mem_pixels.1 hq).2 e)
  refine ⟨out, ?_, l, ?_, ?_⟩
  · unfold loadGrid
    simp only [hd]
    exact e
  · intro ix iy iz h1 h2 h3
    exact g (ix, iy, iz) (mem_pixels.2 ⟨h1, h2, h3⟩)
  · intro j hj
    apply k
    intro p hp e
    have := pix_lt (mem_pixels.1 hp)
    omega

/-- A list of writes one of which is out of range. -/
theorem foldlM_write_none {val : ℕ × ℕ × ℕ → Option ℝ} {idx : ℕ × ℕ × ℕ → ℕ} :
    ∀ (L : List (ℕ × ℕ × ℕ)) (a : Arr), (∃ p ∈ L, a.len ≤ idx p) →
      L.foldlM (fun g p => do let v ← val p; Arr.write g (idx p) v) a = none
  | [], _, h => by obtain ⟨p, h, -⟩ := h; simp at h
  | p :: L, a, h => by
    rw [List.foldlM_cons]
    cases val p with
    | none => rfl
    | some v =>
      simp only [Option.bind_eq_bind, Option.bind_some, Arr.write]
      split_ifs with hp
      · rw [Option.bind_some]
        apply foldlM_write_none L
        obtain ⟨q, hq, hl⟩ := h
        rcases List.mem_cons.1 hq with rfl | hq
        · omega
        · exact ⟨q, hq, hl⟩
      · rfl

/-- C72: nothing is ever written beyond the memory of the grid: with an array shorter than the grid's size the run does not return (in the
program, an array of the right size is allocated with the grid). -/
theorem C72_load_short (nx ny nz : ℕ) (grid : Arr) (file : Dataset) (s : V3 ℝ) (hg : grid.len < nx * ny * nz) :
    loadGrid nx ny nz grid file s = none := by
  unfold loadGrid
  cases fileDims file.dims with
  | none => rfl
  | some d =>
    simp only [Option.bind_eq_bind, Option.bind_some]
    have h1 : 0 < nx * ny * nz := by omega
    have h2 : 0 < nx * ny := Nat.pos_of_mul_pos_right h1
    have hz : 0 < nz := Nat.pos_of_mul_pos_left h1
    have hx : 0 < nx := Nat.pos_of_mul_pos_right h2
    have hy : 0 < ny := Nat.pos_of_mul_pos_left h2
    refine foldlM_write_none (idx := pix ny nz) _ _ ⟨(nx - 1, ny - 1, nz - 1), mem_pixels.2 ⟨Nat.sub_lt hx one_pos, Nat.sub_lt hy one_pos,
      Nat.sub_lt hz one_pos⟩, ?_⟩
    unfold pix
    obtain ⟨nx, rfl⟩ : ∃ m, nx = m + 1 := ⟨nx - 1, by omega⟩
    obtain ⟨ny, rfl⟩ : ∃ m, ny = m + 1 := ⟨ny - 1, by omega⟩
    obtain ⟨nz, rfl⟩ : ∃ m, nz = m + 1 := ⟨nz - 1, by omega⟩
    simp only [Nat.add_sub_cancel]
    have : (nx + 1) * (ny + 1) * (nz + 1) = (nx * (ny + 1) + ny) * (nz + 1) + nz + 1 := by ring
    omega

/-- C72: loading leaves numbers in `[0, 1]`, whatever is in the file. -/
theorem C72_range (nx ny nz dx dy dz : ℕ) (grid data : Arr) (dims : List ℕ) (s : V3 ℝ) (hd : fileDims dims = some (dx, dy, dz))
    (hx : 0 < dx) (hy : 0 < dy) (hz : 0 < dz) (hl : dx * dy * dz ≤ data.len) (hg : nx * ny * nz ≤ grid.len) :
    ∃ out, loadGrid nx ny nz grid ⟨dims, data⟩ s = some out ∧
      ∀ ix iy iz, ix < nx → iy < ny → iz < nz → 0 ≤ out.get ((ix * ny + iy) * nz + iz) ∧ out.get ((ix * ny + iy) * nz + iz) ≤ 1 := by
  obtain ⟨out, e, -, g, -⟩ := C72_load nx ny nz dx dy dz grid data dims s hd hx hy hz hl hg
  refine ⟨out, e, fun ix iy iz h1 h2 h3 => ?_⟩
  rw [g ix iy iz h1 h2 h3]
  exact clamp_mem _

theorem fract_super {i s n : ℕ} (hs : 0 < s) (hn : 0 < n) : Int.fract (((i : ℝ) + 1 / 2) * (s : ℝ) / ((s * n : ℕ) : ℝ)) = ((i % n : ℕ) + 1 / 2) / n := by
  have hs' : (s : ℝ) ≠ 0 := by positivity
  have hn' : (0 : ℝ) < n := by positivity
  have e : ((i : ℝ) + 1 / 2) * (s : ℝ) / ((s * n : ℕ) : ℝ) = ((i % n : ℕ) + 1 / 2) / n + (((i / n : ℕ) : ℤ) : ℝ) := by
    rw [Int.cast_natCast]
    have : (i : ℝ) = ((n * (i / n) + i % n : ℕ) : ℝ) := by rw [Nat.div_add_mod]
    rw [this]
    push_cast
    field_simp
    ring
  rw [e, Int.fract_add_intCast, Int.fract_eq_self]
  have hm : (((i % n : ℕ) : ℝ)) + 1 ≤ n := by exact_mod_cast Nat.mod_lt i hn
  refine ⟨by positivity, ?_⟩
  rw [div_lt_one hn']
  linarith

/-- C72: saving a grid with numbers in `[0, 1]` and loading the file into a grid `sx × sy × sz` times as large, with this supercell,
repeats the saved numbers periodically. -/
theorem C72_supercell (nx ny nz sx sy sz : ℕ) (hx : 0 < nx) (hy : 0 < ny) (hz : 0 < nz) (hsx : 0 < sx) (hsy : 0 < sy) (hsz : 0 < sz)
    (old grid : Arr) (ho : nx * ny * nz ≤ old.len) (hv : ∀ i < nx * ny * nz, 0 ≤ old.get i ∧ old.get i ≤ 1)
    (hg : sx * nx * (sy * ny) * (sz * nz) ≤ grid.len) :
    ∃ out, loadGrid (sx * nx) (sy * ny) (sz * nz) grid (saveGrid nx ny nz old) ⟨sx, sy, sz⟩ = some out ∧
      ∀ ix iy iz, ix < sx * nx → iy < sy * ny → iz < sz * nz → out.get ((ix * (sy * ny) + iy) * (sz * nz) + iz) =
        old.get ((ix % nx * ny + iy % ny) * nz + iz % nz) := by
  obtain ⟨out, e, -, g, -⟩ := C72_load (sx * nx) (sy * ny) (sz * nz) nx ny nz grid old _ ⟨sx, sy, sz⟩ (fileDims_save nx ny nz old) hx hy hz ho hg
  refine ⟨out, e, fun ix iy iz h1 h2 h3 => ?_⟩
  have p : ∀ s : ℕ, 0 < s → superSize (s : ℝ) = s := fun s h => by
    unfold superSize
    rw [if_pos (by positivity)]
  rw [g ix iy iz h1 h2 h3]
  simp only [p _ hsx, p _ hsy, p _ hsz]
  rw [fract_super hsx hx, fract_super hsy hy, fract_super hsz hz, C49_pixel _ _ _ _ _ _ _ _ (Nat.mod_lt _ hx) (Nat.mod_lt _ hy) (Nat.mod_lt _ hz)]
  have e1 : sample old ny nz 1 (ix % nx : ℕ) (iy % ny : ℕ) (iz % nz : ℕ) = old.get ((ix % nx * ny + iy % ny) * nz + iz % nz) := by
    unfold sample flat
    congr 1
    rw [Nat.cast_one, mul_one]
    exact_mod_cast Int.toNat_natCast _
  rw [e1, clamp_id]
  exact hv _ (pix_lt (p := (ix % nx, iy % ny, iz % nz)) ⟨Nat.mod_lt _ hx, Nat.mod_lt _ hy, Nat.mod_lt _ hz⟩)

/-- C72: saving a grid with numbers in `[0, 1]` and loading the file into a grid of the same size restores all numbers, with the
supercell `(1 1 1)` or any supercell without positive components. -/
theorem C72_roundtrip (nx ny nz : ℕ) (hx : 0 < nx) (hy : 0 < ny) (hz : 0 < nz) (old grid : Arr) (s : V3 ℝ)
    (hs : (s.x = 1 ∨ s.x ≤ 0) ∧ (s.y = 1 ∨ s.y ≤ 0) ∧ (s.z = 1 ∨ s.z ≤ 0)) (ho : nx * ny * nz ≤ old.len)
    (hv : ∀ i < nx * ny * nz, 0 ≤ old.get i ∧ old.get i ≤ 1) (hg : nx * ny * nz ≤ grid.len) :
    ∃ out, loadGrid nx ny nz grid (saveGrid nx ny nz old) s = some out ∧
      ∀ ix iy iz, ix < nx → iy < ny → iz < nz → out.get ((ix * ny + iy) * nz + iz) = old.get ((ix * ny + iy) * nz + iz) := by
  obtain ⟨out, e, -, g, -⟩ := C72_load nx ny nz nx ny nz grid old _ s (fileDims_save nx ny nz old) hx hy hz ho hg
  refine ⟨out, e, fun ix iy iz h1 h2 h3 => ?_⟩
  have p : ∀ s : ℝ, s = 1 ∨ s ≤ 0 → superSize s = ((1 : ℕ) : ℝ) := fun s h => by
    unfold superSize
    rcases h with rfl | h
    · simp
    · rw [if_neg (by linarith)]; simp
  have f := @fract_super (s := 1) (hs := by omega)
  simp only [one_mul] at f
  rw [g ix iy iz h1 h2 h3, p _ hs.1, p _ hs.2.1, p _ hs.2.2, f _ _ hx, f _ _ hy, f _ _ hz, Nat.mod_eq_of_lt h1, Nat.mod_eq_of_lt h2,
    Nat.mod_eq_of_lt h3, C49_pixel _ _ _ _ _ _ _ _ h1 h2 h3]
  have e1 : sample old ny nz 1 (ix : ℕ) (iy : ℕ) (iz : ℕ) = old.get ((ix * ny + iy) * nz + iz) := by
    unfold sample flat
    congr 1
    rw [Nat.cast_one, mul_one]
    exact_mod_cast Int.toNat_natCast _
  rw [e1, clamp_id]
  exact hv _ (pix_lt (p := (ix, iy, iz)) ⟨h1, h2, h3⟩)

/-- Non-vacuity: a grid of two numbers loaded into one of four. -/
example : ∃ old grid : Arr, 2 * 1 * 1 ≤ old.len ∧ (∀ i < 2 * 1 * 1, 0 ≤ old.get i ∧ old.get i ≤ 1) ∧ 2 * 2 * (1 * 1) * (1 * 1) ≤ grid.len ∧
    old.get 0 ≠ old.get 1 := by
  refine ⟨twoPixels, ⟨4, fun _ => 0⟩, by simp [twoPixels], ?_, by simp, by simp [twoPixels]⟩
  intro i _
  simp only [twoPixels]
  split_ifs <;> norm_num

/-! ## A material grid as the default material -/

/-- Specification: the coordinates, from 0 to 1, in a block that fills the cell (centred at the origin). -/
noncomputable def Spec.cellCoords (p size : V3 ℝ) : V3 ℝ := ⟨p.x / size.x + 1 / 2, p.y / size.y + 1 / 2, p.z / size.z + 1 / 2⟩

/-- What the code computes for a point outside all objects: the grid's value at `|p / size|`, per direction, and at 0 in the directions
that the lattice does not have. -/
theorem C71_default_partial (U : Mem) (g : MGrid) (ns : V3 Bool) (p size : V3 ℝ) (hx : 0 < g.nx) (hy : 0 < g.ny) (hz : 0 < g.nz)
    (hl : g.nx * g.ny * g.nz ≤ (U g.arr).len) (hpx : ns.x = false → |p.x / size.x| ≤ 1) (hpy : ns.y = false → |p.y / size.y| ≤ 1)
    (hpz : ns.z = false → |p.z / size.z| ≤ 1) :
    gridVal U (g, defaultPos ns p size) = some (mirrorInterp (U g.arr) g.nx g.ny g.nz 1
      ⟨if ns.x then 0 else p.x / size.x, if ns.y then 0 else p.y / size.y, if ns.z then 0 else p.z / size.z⟩) := by
  have key : ∀ (b : Bool) (a s : ℝ), (b = false → |a / s| ≤ 1) → -1 ≤ (if b then 0 else a / s) ∧ (if b then 0 else a / s) ≤ 1 := by
    intro b a s h
    cases b
    · exact abs_le.1 (h rfl)
    · norm_num
  exact C49_interp_partial _ _ _ _ _ _ hx hy hz (by omega) (by simpa using hl) (key _ _ _ hpx) (key _ _ _ hpy) (key _ _ _ hpz)

/-- C71 fails: for every grid, the value at a point is that at its mirror images in the planes `x = 0`, `y = 0` and `z = 0`, so that a
default material grid can only give structures with three mirror planes. -/
theorem C71_mirror_refuted (U : Mem) (g : MGrid) (p size : V3 ℝ) (hp : |p.x / size.x| ≤ 1 ∧ |p.y / size.y| ≤ 1 ∧ |p.z / size.z| ≤ 1) :
    gridVal U (g, defaultPos ⟨false, false, false⟩ ⟨-p.x, p.y, p.z⟩ size) = gridVal U (g, defaultPos ⟨false, false, false⟩ p size) ∧
    gridVal U (g, defaultPos ⟨false, false, false⟩ ⟨p.x, -p.y, p.z⟩ size) = gridVal U (g, defaultPos ⟨false, false, false⟩ p size) ∧
    gridVal U (g, defaultPos ⟨false, false, false⟩ ⟨p.x, p.y, -p.z⟩ size) = gridVal U (g, defaultPos ⟨false, false, false⟩ p size) := by
  have key : ∀ (a s : ℝ) (n : ℕ), |a / s| ≤ 1 → axis (defaultCoord false (-a) s) n = axis (defaultCoord false a s) n := by
    intro a s n h
    have hm : mirror (defaultCoord false (-a) s) = mirror (defaultCoord false a s) := by
      unfold defaultCoord mirror
      rw [abs_le] at h
      simp only [Bool.false_eq_true, if_false, neg_div]
      rcases lt_trichotomy (a / s) 0 with h1 | h1 | h1
      · rw [if_neg (by linarith), if_neg (by linarith [h.1]), if_pos h1]
      · rw [h1]; simp
      · rw [if_pos (by linarith), if_neg (by linarith), if_neg (by linarith [h.2])]; ring
    unfold axis
    rw [hm]
  unfold gridVal linearInterpolate defaultPos
  simp only [key _ _ _ hp.1, key _ _ _ hp.2.1, key _ _ _ hp.2.2, and_self]

/-- The concrete case: a grid of two pixels, 0 on the left and 1 on the right.  A block with this grid that fills the cell (of size 1)
has the value 0 at `x = -1/4` and 1 at `x = 1/4`; with the grid as default material both values are 0. -/
theorem C71_example_refuted : ∃ g : MGrid,
    gridVal (fun _ => twoPixels) (g, defaultPos ⟨false, false, false⟩ ⟨-1/4, 0, 0⟩ ⟨1, 1, 1⟩) = some 0 ∧
    gridVal (fun _ => twoPixels) (g, defaultPos ⟨false, false, false⟩ ⟨1/4, 0, 0⟩ ⟨1, 1, 1⟩) = some 0 ∧
    gridVal (fun _ => twoPixels) (g, cellCoords ⟨-1/4, 0, 0⟩ ⟨1, 1, 1⟩) = some 0 ∧
    gridVal (fun _ => twoPixels) (g, cellCoords ⟨1/4, 0, 0⟩ ⟨1, 1, 1⟩) = some 1 := by
  have A : ∀ x y z : ℝ, 0 ≤ x → x ≤ 1 → -1 ≤ y → y ≤ 1 → -1 ≤ z → z ≤ 1 → ∀ i : ℤ, (2 : ℕ) * x - 1 / 2 = i → 0 ≤ i → i < 2 →
      gridVal (fun _ => twoPixels) (⟨.uMin, 1, 12, 1, 1, 2, 1, 1, 0⟩, ⟨x, y, z⟩) = some (twoPixels.get i.toNat) := by
    intro x y z x0 x1 y0 y1 z0 z1 i hi i0 i1
    unfold gridVal
    rw [C49_interp_partial _ _ _ _ _ _ (by norm_num) (by norm_num) (by norm_num) (by norm_num) (by simp [twoPixels]) ⟨by linarith, x1⟩
      ⟨y0, y1⟩ ⟨z0, z1⟩]
    have m1 : ∀ j, mirrorIdx 1 j = 0 := fun j => by
      have := mirrorIdx_range (n := 1) (by omega) j
      omega
    unfold mirrorInterp trilin
    simp only [m1, hi]
    simp only [lin, Int.fract_intCast, Int.floor_intCast]
    rw [mirrorIdx_id i0 (by exact_mod_cast i1)]
    unfold sample flat
    norm_num
    ring
  have B : gridVal (fun _ => twoPixels) (⟨.uMin, 1, 12, 1, 1, 2, 1, 1, 0⟩, defaultPos ⟨false, false, false⟩ ⟨1/4, 0, 0⟩ ⟨1, 1, 1⟩) = some 0 := by
    have := A (1/4) 0 0 (by norm_num) (by norm_num) (by norm_num) (by norm_num) (by norm_num) (by norm_num) 0 (by norm_num) (by norm_num) (by norm_num)
    rw [show (twoPixels.get (0 : ℤ).toNat) = 0 from by simp [twoPixels]] at this
    rw [← this]
    congr 2
    simp [defaultPos, defaultCoord]
  refine ⟨⟨.uMin, 1, 12, 1, 1, 2, 1, 1, 0⟩, ?_, B, ?_, ?_⟩
  · rw [← B, ← (C71_mirror_refuted _ _ ⟨1/4, 0, 0⟩ ⟨1, 1, 1⟩ ⟨by norm_num [abs_le], by norm_num, by norm_num⟩).1]
    norm_num
  · have := A (1/4) (1/2) (1/2) (by norm_num) (by norm_num) (by norm_num) (by norm_num) (by norm_num) (by norm_num) 0 (by norm_num) (by norm_num) (by norm_num)
    rw [show (twoPixels.get (0 : ℤ).toNat) = 0 from by simp [twoPixels]] at this
    rw [← this]
    congr 2
    simp only [cellCoords]
    norm_num
  · have := A (3/4) (1/2) (1/2) (by norm_num) (by norm_num) (by norm_num) (by norm_num) (by norm_num) (by norm_num) 1 (by norm_num) (by norm_num) (by norm_num)
    rw [show (twoPixels.get (1 : ℤ).toNat) = 1 from by simp [twoPixels]] at this
    rw [← this]
    congr 2
    simp only [cellCoords]
    norm_num

end Mpb.MatGrid

import Verif.MatGrid.InterpLemmas
import Mathlib.Analysis.Calculus.Deriv.Mul
import Mathlib.Analysis.Calculus.Deriv.Add

/-! # Properties C49, C50 (one grid) and C70: interpolation on grids -/

namespace Mpb.MatGrid
open Mpb.Spec Spec

/-- Specification: the array's values at the pixel centres `((i+1/2)/nx, (j+1/2)/ny, (k+1/2)/nz)`, extended to all of space by mirror
reflection at the faces of `[0,1]^3`, and joined linearly in each direction. -/
noncomputable def Spec.mirrorInterp (data : Arr) (nx ny nz stride : ℕ) (r : V3 ℝ) : ℝ :=
  trilin (fun i j k => sample data ny nz stride (mirrorIdx nx i) (mirrorIdx ny j) (mirrorIdx nz k))
    (nx * r.x - 1 / 2) (ny * r.y - 1 / 2) (nz * r.z - 1 / 2)

/-- The specified function is unchanged by reflection at a face: at `0` and at `1` (x direction; the others are alike). -/
theorem Spec.mirrorInterp_mirror (data : Arr) (nx ny nz stride : ℕ) (hx : 0 < nx) (r : V3 ℝ) :
    mirrorInterp data nx ny nz stride ⟨-r.x, r.y, r.z⟩ = mirrorInterp data nx ny nz stride r ∧
    mirrorInterp data nx ny nz stride ⟨2 - r.x, r.y, r.z⟩ = mirrorInterp data nx ny nz stride r := by
  unfold mirrorInterp trilin
  constructor
  · have e1 : (nx : ℝ) * -r.x - 1 / 2 = ((-1 : ℤ) : ℝ) - (nx * r.x - 1 / 2) := by push_cast; ring
    simp only
    rw [e1, lin_reflect]
    simp only [mirrorIdx_symm hx]
  · have e1 : (nx : ℝ) * (2 - r.x) - 1 / 2 = ((2 * nx - 1 : ℤ) : ℝ) - (nx * r.x - 1 / 2) := by push_cast; ring
    simp only
    rw [e1, lin_reflect]
    have : ∀ i : ℤ, mirrorIdx nx (2 * nx - 1 - i) = mirrorIdx nx i := by
      intro i
      rw [← mirrorIdx_symm hx i]
      unfold mirrorIdx
      have : (2 * (nx : ℤ) - 1 - i) % (2 * nx) = (-1 - i) % (2 * nx) := by
        rw [show 2 * (nx : ℤ) - 1 - i = -1 - i + 2 * nx by ring, Int.add_emod_right]
      rw [this]
    simp only [this]

/-- C49 (partial: points of `[-1,1]^3` instead of `[-1,2]^3`).  The interpolation reads inside the array only and returns the value of
the mirror-extended piecewise linear function. -/
theorem C49_interp_partial (r : V3 ℝ) (data : Arr) (nx ny nz stride : ℕ) (hx : 0 < nx) (hy : 0 < ny) (hz : 0 < nz) (hs : 0 < stride)
    (hl : nx * ny * nz * stride ≤ data.len) (hrx : -1 ≤ r.x ∧ r.x ≤ 1) (hry : -1 ≤ r.y ∧ r.y ≤ 1) (hrz : -1 ≤ r.z ∧ r.z ≤ 1) :
    linearInterpolate r data nx ny nz stride = some (mirrorInterp data nx ny nz stride r) := by
  obtain ⟨x1, x2, x3, x4, -, -, fx⟩ := axis_spec hx hrx.1 hrx.2
  obtain ⟨y1, y2, y3, y4, -, -, fy⟩ := axis_spec hy hry.1 hry.2
  obtain ⟨z1, z2, z3, z4, -, -, fz⟩ := axis_spec hz hrz.1 hrz.2
  unfold linearInterpolate
  rw [combine_eq hs hl ⟨x1, x2⟩ ⟨x3, x4⟩ ⟨y1, y2⟩ ⟨y3, y4⟩ ⟨z1, z2⟩ ⟨z3, z4⟩]
  congr 1
  unfold mirrorInterp trilin
  rw [← fx (fun a => lin (fun j => lin (fun k => sample data ny nz stride a (mirrorIdx ny j) (mirrorIdx nz k)) (nz * r.z - 1 / 2)) (ny * r.y - 1 / 2))]
  have e : ∀ a, lin (fun j => lin (fun k => sample data ny nz stride a (mirrorIdx ny j) (mirrorIdx nz k)) (nz * r.z - 1 / 2)) (ny * r.y - 1 / 2) =
      (1 - (axis r.y ny).d) * ((1 - (axis r.z nz).d) * sample data ny nz stride a (axis r.y ny).x (axis r.z nz).x +
        (axis r.z nz).d * sample data ny nz stride a (axis r.y ny).x (axis r.z nz).x2) +
      (axis r.y ny).d * ((1 - (axis r.z nz).d) * sample data ny nz stride a (axis r.y ny).x2 (axis r.z nz).x +
        (axis r.z nz).d * sample data ny nz stride a (axis r.y ny).x2 (axis r.z nz).x2) := by
    intro a
    rw [← fy (fun b => lin (fun k => sample data ny nz stride a b (mirrorIdx nz k)) (nz * r.z - 1 / 2))]
    rw [← fz (fun c => sample data ny nz stride a (axis r.y ny).x c), ← fz (fun c => sample data ny nz stride a (axis r.y ny).x2 c)]
  simp only [e]

/-- C49: the value lies in every interval that contains the data. -/
theorem C49_range (r : V3 ℝ) (data : Arr) (nx ny nz stride : ℕ) (hx : 0 < nx) (hy : 0 < ny) (hz : 0 < nz) (lo hi : ℝ)
    (hb : ∀ x y z : ℤ, 0 ≤ x → x < nx → 0 ≤ y → y < ny → 0 ≤ z → z < nz →
      sample data ny nz stride x y z ∈ Set.Icc lo hi) : mirrorInterp data nx ny nz stride r ∈ Set.Icc lo hi :=
  trilin_mem (convex_Icc lo hi) (fun i j k => hb _ _ _ (mirrorIdx_range hx i).1 (mirrorIdx_range hx i).2 (mirrorIdx_range hy j).1
    (mirrorIdx_range hy j).2 (mirrorIdx_range hz k).1 (mirrorIdx_range hz k).2) _ _ _

/-- C49: at the centre of the pixel `(i, j, k)` the value is that of the pixel. -/
theorem C49_pixel (data : Arr) (nx ny nz stride i j k : ℕ) (hi : i < nx) (hj : j < ny) (hk : k < nz) :
    mirrorInterp data nx ny nz stride ⟨(i + 1 / 2) / nx, (j + 1 / 2) / ny, (k + 1 / 2) / nz⟩ = sample data ny nz stride i j k := by
  have e : ∀ (n : ℕ) (i : ℕ), i < n → (n : ℝ) * ((i + 1 / 2) / n) - 1 / 2 = ((i : ℤ) : ℝ) := by
    intro n i h
    have : (n : ℝ) ≠ 0 := by have : 0 < n := by omega
                             positivity
    field_simp
    push_cast
    ring
  unfold mirrorInterp
  rw [e nx i hi, e ny j hj, e nz k hk, trilin_int, mirrorIdx_id (by omega) (by omega), mirrorIdx_id (by omega) (by omega),
    mirrorIdx_id (by omega) (by omega)]

/-- C49 fails beyond the upper faces: for every array and every point with `1 + 1/nx ≤ rx ≤ 2` the array is read before its start. -/
theorem C49_beyond_refuted (r : V3 ℝ) (data : Arr) (nx ny nz stride : ℕ) (hx : 0 < nx) (hy : 0 < ny) (hz : 0 < nz) (hs : 0 < stride)
    (hr : 1 + 1 / (nx : ℝ) ≤ r.x) (hry : 0 ≤ r.y ∧ r.y ≤ 1) (hrz : 0 ≤ r.z ∧ r.z ≤ 1) :
    linearInterpolate r data nx ny nz stride = none := by
  have hnR : (0 : ℝ) < nx := by exact_mod_cast hx
  obtain ⟨y1, y2, -, -, -, -, -⟩ := axis_spec hy (r := r.y) (by linarith) hry.2
  obtain ⟨z1, z2, -, -, -, -, -⟩ := axis_spec hz (r := r.z) (by linarith) hrz.2
  have h1 : 1 < r.x := by
    have : 0 < 1 / (nx : ℝ) := by positivity
    linarith
  have hx' : (axis r.x nx).x ≤ -1 := by
    have hm : mirror r.x = 1 - r.x := by unfold mirror; rw [if_neg (by linarith), if_pos h1]
    have hle : (1 - r.x) * nx ≤ -1 := by
      have : 1 / (nx : ℝ) * nx = 1 := by field_simp
      nlinarith
    have hc : ⌈(1 - r.x) * nx⌉ ≤ -1 := by
      rw [Int.ceil_le]
      push_cast
      exact hle
    unfold axis cell
    simp only [hm]
    rw [truncZ_neg (by linarith)]
    split_ifs <;> omega
  have hneg : flat ny nz stride (axis r.x nx).x (axis r.y ny).x (axis r.z nz).x < 0 := by
    have hny : (0 : ℤ) < ny := by omega
    have hnz : (0 : ℤ) < nz := by omega
    have hs' : (0 : ℤ) < stride := by omega
    have a1 : (axis r.x nx).x * ny + (axis r.y ny).x ≤ -1 := by nlinarith
    have a2 : ((axis r.x nx).x * ny + (axis r.y ny).x) * nz + (axis r.z nz).x ≤ -1 := by nlinarith
    unfold flat
    nlinarith
  unfold linearInterpolate combine
  have : data.read (flat ny nz stride (axis r.x nx).x (axis r.y ny).x (axis r.z nz).x) = none := by
    unfold Arr.read
    rw [if_neg (by omega)]
  simp only [this, Option.bind_eq_bind, Option.bind_none]

/-- C49 fails just beyond the upper faces: for `1 < rx < 1 + 1/nx` the code returns, for every array, the value at the opposite face
`rx = 0`. -/
theorem C49_opposite_refuted (r : V3 ℝ) (data : Arr) (nx ny nz stride : ℕ) (hx : 0 < nx) (hl : nx * ny * nz * stride ≤ data.len)
    (hr : 1 < r.x ∧ r.x < 1 + 1 / (nx : ℝ)) (hy : 0 < ny) (hz : 0 < nz) (hs : 0 < stride)
    (hry : 0 ≤ r.y ∧ r.y ≤ 1) (hrz : 0 ≤ r.z ∧ r.z ≤ 1) :
    linearInterpolate r data nx ny nz stride = some (mirrorInterp data nx ny nz stride ⟨0, r.y, r.z⟩) := by
  have hnR : (0 : ℝ) < nx := by exact_mod_cast hx
  rw [← C49_interp_partial ⟨0, r.y, r.z⟩ data nx ny nz stride hx hy hz hs hl ⟨by norm_num, by norm_num⟩ ⟨by linarith [hry.1], hry.2⟩
    ⟨by linarith [hrz.1], hrz.2⟩]
  have hm : mirror r.x = 1 - r.x := by unfold mirror; rw [if_neg (by linarith), if_pos hr.1]
  have h1 : -1 < (1 - r.x) * nx := by
    have : 1 / (nx : ℝ) * nx = 1 := by field_simp
    nlinarith [hr.2]
  have h2 : (1 - r.x) * nx < 0 := by nlinarith [hr.1]
  have hc : ⌈(1 - r.x) * nx⌉ = 0 := by
    rw [Int.ceil_eq_iff]
    push_cast
    constructor <;> linarith
  have hx0 : (axis r.x nx).x = 0 := by
    unfold axis cell
    simp only [hm]
    rw [truncZ_neg h2, hc, if_neg (by omega)]
  have hx2 : (axis r.x nx).x2 = 0 := by
    unfold axis other cell
    simp only [hm]
    rw [truncZ_neg h2, hc, if_neg (show ¬ (0 : ℤ) = nx by omega)]
    rw [if_neg (show ¬ (1 - r.x) * (nx : ℝ) - ((0 : ℤ) : ℝ) - 0.5 ≥ 0 by push_cast; linarith)]
    norm_num
  have h00 : (axis 0 nx).x = 0 := by
    have hm0 : mirror 0 = 0 := by unfold mirror; norm_num
    unfold axis cell
    simp only [hm0, zero_mul]
    rw [truncZ_nonneg (le_refl _), Int.floor_zero, if_neg (by omega)]
  have h02 : (axis 0 nx).x2 = 0 := by
    have hm0 : mirror 0 = 0 := by unfold mirror; norm_num
    unfold axis other cell
    simp only [hm0, zero_mul]
    rw [truncZ_nonneg (le_refl _), Int.floor_zero, if_neg (show ¬ (0 : ℤ) = nx by omega)]
    norm_num
  obtain ⟨y1, y2, y3, y4, -, -, -⟩ := axis_spec hy (r := r.y) (by linarith) hry.2
  obtain ⟨z1, z2, z3, z4, -, -, -⟩ := axis_spec hz (r := r.z) (by linarith) hrz.2
  unfold linearInterpolate
  have hz0 : (0 : ℤ) ≤ 0 ∧ (0 : ℤ) < nx := ⟨le_refl _, by omega⟩
  rw [combine_eq hs hl (by rw [hx0]; exact hz0) (by rw [hx2]; exact hz0) ⟨y1, y2⟩ ⟨y3, y4⟩ ⟨z1, z2⟩ ⟨z3, z4⟩,
    combine_eq hs hl (by rw [h00]; exact hz0) (by rw [h02]; exact hz0) ⟨y1, y2⟩ ⟨y3, y4⟩ ⟨z1, z2⟩ ⟨z3, z4⟩, hx0, hx2, h00, h02]
  congr 1
  ring

/-- The two-pixel array `0, 1`. -/
def twoPixels : Arr := ⟨2, fun i => if i = 0 then 0 else 1⟩

/-- Concretely: two pixels with values 0 and 1.  At `x = 1.1` the code returns 0, the mirror-extended value is 1; at `x = 1.5` it reads
outside the array.  Inside it interpolates: at `x = 1/2` the value is 1/2. -/
theorem C49_example_refuted : linearInterpolate ⟨1.1, 1/2, 1/2⟩ twoPixels 2 1 1 1 = some 0 ∧
    mirrorInterp twoPixels 2 1 1 1 ⟨1.1, 1/2, 1/2⟩ = 1 ∧ linearInterpolate ⟨1.5, 1/2, 1/2⟩ twoPixels 2 1 1 1 = none ∧
    linearInterpolate ⟨1/2, 1/2, 1/2⟩ twoPixels 2 1 1 1 = some (1 / 2) := by
  have f0 : ⌊(-1 / 2 : ℝ)⌋ = -1 := by rw [Int.floor_eq_iff]; norm_num
  have f1 : ⌊(17 / 10 : ℝ)⌋ = 1 := by rw [Int.floor_eq_iff]; norm_num
  have f2 : ⌊(1 / 2 : ℝ)⌋ = 0 := by rw [Int.floor_eq_iff]; norm_num
  refine ⟨?_, ?_, C49_beyond_refuted _ _ _ _ _ _ (by omega) (by omega) (by omega) (by omega) (by norm_num) (by norm_num) (by norm_num), ?_⟩
  · rw [C49_opposite_refuted _ _ _ _ _ _ (by omega) (by decide) (by norm_num) (by omega) (by omega) (by omega) (by norm_num) (by norm_num)]
    have a0 : (2 : ℕ) * (0 : ℝ) - 1 / 2 = -1 / 2 := by norm_num
    have a1 : (1 : ℕ) * (1 / 2 : ℝ) - 1 / 2 = 0 := by norm_num
    unfold mirrorInterp trilin lin
    simp only [a0, a1, Int.fract, f0]
    norm_num [mirrorIdx, sample, flat, twoPixels]
  · have a0 : (2 : ℕ) * (1.1 : ℝ) - 1 / 2 = 17 / 10 := by norm_num
    have a1 : (1 : ℕ) * (1 / 2 : ℝ) - 1 / 2 = 0 := by norm_num
    unfold mirrorInterp trilin lin
    simp only [a0, a1, Int.fract, f1]
    norm_num [mirrorIdx, sample, flat, twoPixels]
  · rw [C49_interp_partial _ _ _ _ _ _ (by omega) (by omega) (by omega) (by omega) (by decide) (by norm_num) (by norm_num) (by norm_num)]
    have a0 : (2 : ℕ) * (1 / 2 : ℝ) - 1 / 2 = 1 / 2 := by norm_num
    have a1 : (1 : ℕ) * (1 / 2 : ℝ) - 1 / 2 = 0 := by norm_num
    unfold mirrorInterp trilin lin
    simp only [a0, a1, Int.fract, f2]
    norm_num [mirrorIdx, sample, flat, twoPixels]

/-! ### C70: dielectric functions read from files -/

theorem wrap_eq (r : ℝ) : wrap r = Int.fract r := by
  unfold wrap truncZ
  rcases le_or_gt 0 r with h | h
  · simp only [ge_iff_le, if_pos h]
    split_ifs with h1
    · exact (Int.fract_eq_self.2 ⟨h, h1⟩).symm
    · rfl
  · simp only [ge_iff_le, if_neg (not_le.2 h), if_pos (show (0 : ℝ) ≤ -r by linarith)]
    have hf : r + (1 + (⌊-r⌋ : ℝ)) = Int.fract r ∨ (r + (1 + (⌊-r⌋ : ℝ)) = 1 ∧ Int.fract r = 0) := by
      have a := Int.floor_add_fract (-r)
      have b := Int.fract_nonneg (-r)
      have c := Int.fract_lt_one (-r)
      by_cases h0 : Int.fract (-r) = 0
      · right
        refine ⟨by linarith, ?_⟩
        have : r = ((-⌊-r⌋ : ℤ) : ℝ) := by push_cast; linarith
        rw [this]
        exact Int.fract_intCast _
      · left
        rw [eq_comm, Int.fract_eq_iff]
        have : 0 < Int.fract (-r) := lt_of_le_of_ne b (Ne.symm h0)
        refine ⟨by linarith, by linarith, -(1 + ⌊-r⌋), ?_⟩
        push_cast
        ring
    rcases hf with hf | ⟨hf, h0⟩
    · rw [hf, if_pos (Int.fract_lt_one r)]
    · rw [hf, if_neg (by norm_num), h0]
      simp

/-- C70: a dielectric function read from a file is periodic with the lattice, is in each cell the mirror-extended interpolation of the
file's data, and reads the data inside its array only. -/
theorem C70_file_function (r : V3 ℝ) (data : Arr) (nx ny nz : ℕ) (hx : 0 < nx) (hy : 0 < ny) (hz : 0 < nz) (hl : nx * ny * nz ≤ data.len) :
    epsilonFileFunc r data nx ny nz = some (mirrorInterp data nx ny nz 1 ⟨Int.fract r.x, Int.fract r.y, Int.fract r.z⟩,
      1 / mirrorInterp data nx ny nz 1 ⟨Int.fract r.x, Int.fract r.y, Int.fract r.z⟩) := by
  have h := fun x : ℝ => (⟨by linarith [Int.fract_nonneg x], (Int.fract_lt_one x).le⟩ : -1 ≤ Int.fract x ∧ Int.fract x ≤ 1)
  unfold epsilonFileFunc
  rw [wrap_eq, wrap_eq, wrap_eq, C49_interp_partial _ _ _ _ _ _ hx hy hz (by omega) (by simpa using hl) (h _) (h _) (h _)]
  rfl

/-- C70: translation by a lattice vector does not change the dielectric function. -/
theorem C70_periodic (r : V3 ℝ) (m : V3 ℤ) (data : Arr) (nx ny nz : ℕ) :
    epsilonFileFunc ⟨r.x + m.x, r.y + m.y, r.z + m.z⟩ data nx ny nz = epsilonFileFunc r data nx ny nz := by
  unfold epsilonFileFunc
  simp only [wrap_eq, Int.fract_add_intCast]

/-- C70: if the data are between `lo > 0` and `hi`, so is the dielectric constant, and the inverse is its inverse. -/
theorem C70_range (r : V3 ℝ) (data : Arr) (nx ny nz : ℕ) (hx : 0 < nx) (hy : 0 < ny) (hz : 0 < nz) (hl : nx * ny * nz ≤ data.len) (lo hi : ℝ)
    (hlo : 0 < lo) (hb : ∀ i < nx * ny * nz, data.get i ∈ Set.Icc lo hi) :
    ∃ e einv, epsilonFileFunc r data nx ny nz = some (e, einv) ∧ lo ≤ e ∧ e ≤ hi ∧ e * einv = 1 := by
  refine ⟨_, _, C70_file_function r data nx ny nz hx hy hz hl, ?_⟩
  have := C49_range ⟨Int.fract r.x, Int.fract r.y, Int.fract r.z⟩ data nx ny nz 1 hx hy hz lo hi (fun x y z a b c d e f => by
    obtain ⟨g1, g2⟩ := flat_range (stride := 1) (by omega) ⟨a, b⟩ ⟨c, d⟩ ⟨e, f⟩
    apply hb
    rw [mul_one] at g2
    omega)
  refine ⟨this.1, this.2, ?_⟩
  have := this.1
  rw [mul_one_div, div_self (by linarith)]

/-- Non-vacuity: an array of 2×1×1 numbers. -/
example : ∃ data : Arr, 2 * 1 * 1 ≤ data.len ∧ ∀ i < 2 * 1 * 1, data.get i ∈ Set.Icc (1 : ℝ) 12 :=
  ⟨⟨2, fun i => if i = 0 then 1 else 12⟩, by decide, fun i _ => by simp only [Set.mem_Icc]; split_ifs <;> norm_num⟩

/-! ### C50: weights -/

/-- Specification: the array with entry `i` replaced by `t`. -/
def Spec.setEntry (u : Arr) (i : ℕ) (t : ℝ) : Arr := ⟨u.len, Function.update u.get i t⟩

/-- The total weight of entry `i`: the sum over the eight points. -/
noncomputable def wt (ny nz stride : ℕ) (X Y Z : Axis) (i : ℕ) : ℝ :=
  let I := fun x y z => if (flat ny nz stride x y z).toNat = i then (1 : ℝ) else 0
  (1 - X.d) * (1 - Y.d) * (1 - Z.d) * I X.x Y.x Z.x + X.d * (1 - Y.d) * (1 - Z.d) * I X.x2 Y.x Z.x +
  (1 - X.d) * Y.d * (1 - Z.d) * I X.x Y.x2 Z.x + X.d * Y.d * (1 - Z.d) * I X.x2 Y.x2 Z.x +
  (1 - X.d) * (1 - Y.d) * Z.d * I X.x Y.x Z.x2 + X.d * (1 - Y.d) * Z.d * I X.x2 Y.x Z.x2 +
  (1 - X.d) * Y.d * Z.d * I X.x Y.x2 Z.x2 + X.d * Y.d * Z.d * I X.x2 Y.x2 Z.x2

theorem add_eq {l : ℕ} {g : ℕ → ℝ} {i : ℤ} (h : 0 ≤ i ∧ i < l) (w : ℝ) :
    Arr.add ⟨l, g⟩ i w = some ⟨l, fun j => g j + w * (if i.toNat = j then 1 else 0)⟩ := by
  unfold Arr.add
  simp only
  rw [if_pos h]
  congr 2
  funext j
  by_cases hj : j = i.toNat
  · subst hj; simp
  · rw [Function.update_of_ne hj, if_neg (fun h => hj h.symm)]; ring

/-- The eight updates add `s` times the weights. -/
theorem scatter_eq {data : Arr} {nx ny nz stride : ℕ} (hs : 0 < stride) (hl : nx * ny * nz * stride ≤ data.len) {X Y Z : Axis}
    (hx : 0 ≤ X.x ∧ X.x < nx) (hx2 : 0 ≤ X.x2 ∧ X.x2 < nx) (hy : 0 ≤ Y.x ∧ Y.x < ny) (hy2 : 0 ≤ Y.x2 ∧ Y.x2 < ny)
    (hz : 0 ≤ Z.x ∧ Z.x < nz) (hz2 : 0 ≤ Z.x2 ∧ Z.x2 < nz) (s : ℝ) :
    scatter data ny nz stride X Y Z s = some ⟨data.len, fun i => data.get i + s * wt ny nz stride X Y Z i⟩ := by
  have R : ∀ {x y z : ℤ}, 0 ≤ x ∧ x < nx → 0 ≤ y ∧ y < ny → 0 ≤ z ∧ z < nz → 0 ≤ flat ny nz stride x y z ∧
      flat ny nz stride x y z < data.len := fun a b c => ⟨(flat_range hs a b c).1, by have := (flat_range hs a b c).2; omega⟩
  obtain ⟨l, g⟩ := data
  unfold scatter
  simp only [Option.bind_eq_bind]
  rw [add_eq (R hx hy hz), Option.bind_some, add_eq (R hx2 hy hz), Option.bind_some, add_eq (R hx hy2 hz), Option.bind_some,
    add_eq (R hx2 hy2 hz), Option.bind_some, add_eq (R hx hy hz2), Option.bind_some, add_eq (R hx2 hy hz2), Option.bind_some,
    add_eq (R hx hy2 hz2), Option.bind_some, add_eq (R hx2 hy2 hz2)]
  congr 2
  funext i
  unfold wt
  ring

/-- Changing one entry changes the combination by the weight of the entry. -/
theorem combine_setEntry {u : Arr} {nx ny nz stride : ℕ} (hs : 0 < stride) (hl : nx * ny * nz * stride ≤ u.len) {X Y Z : Axis}
    (hx : 0 ≤ X.x ∧ X.x < nx) (hx2 : 0 ≤ X.x2 ∧ X.x2 < nx) (hy : 0 ≤ Y.x ∧ Y.x < ny) (hy2 : 0 ≤ Y.x2 ∧ Y.x2 < ny)
    (hz : 0 ≤ Z.x ∧ Z.x < nz) (hz2 : 0 ≤ Z.x2 ∧ Z.x2 < nz) (i : ℕ) {c : ℝ} (hc : combine u ny nz stride X Y Z = some c) (t : ℝ) :
    combine (setEntry u i t) ny nz stride X Y Z = some (c + (t - u.get i) * wt ny nz stride X Y Z i) := by
  have key : ∀ x y z, sample (setEntry u i t) ny nz stride x y z = sample u ny nz stride x y z +
      (t - u.get i) * (if (flat ny nz stride x y z).toNat = i then 1 else 0) := by
    intro x y z
    unfold sample setEntry
    simp only
    by_cases h : (flat ny nz stride x y z).toNat = i
    · rw [if_pos h, h]; simp
    · rw [if_neg h, Function.update_of_ne h]; ring
  rw [combine_eq hs hl hx hx2 hy hy2 hz hz2] at hc
  rw [combine_eq (data := setEntry u i t) hs hl hx hx2 hy hy2 hz hz2, ← Option.some.inj hc]
  simp only [key]
  congr 1
  unfold wt
  ring

/-- C50: at every point of `[-1,1]^3`, for every grid and for the kind `U-SUM`, the call adds to entry `i` of the gradient exactly `scaleby`
times the derivative of the interpolated value with respect to entry `i` of the grid. -/
theorem C50_weights (r : V3 ℝ) (v u : Arr) (nx ny nz stride : ℕ) (scaleby uval : ℝ) (hx : 0 < nx) (hy : 0 < ny) (hz : 0 < nz)
    (hs : 0 < stride) (hlv : nx * ny * nz * stride ≤ v.len) (hlu : nx * ny * nz * stride ≤ u.len) (hrx : -1 ≤ r.x ∧ r.x ≤ 1)
    (hry : -1 ≤ r.y ∧ r.y ≤ 1) (hrz : -1 ≤ r.z ∧ r.z ≤ 1) :
    ∃ v', addInterpolateWeights r v nx ny nz stride scaleby u .uSum uval = some v' ∧ v'.len = v.len ∧
      ∀ i, ∃ f : ℝ → ℝ, (∀ t, linearInterpolate r (setEntry u i t) nx ny nz stride = some (f t)) ∧
        ∃ f', HasDerivAt f f' (u.get i) ∧ v'.get i = v.get i + scaleby * f' := by
  obtain ⟨x1, x2, x3, x4, -, -, -⟩ := axis_spec hx hrx.1 hrx.2
  obtain ⟨y1, y2, y3, y4, -, -, -⟩ := axis_spec hy hry.1 hry.2
  obtain ⟨z1, z2, z3, z4, -, -, -⟩ := axis_spec hz hrz.1 hrz.2
  have hc := C49_interp_partial r u nx ny nz stride hx hy hz hs hlu hrx hry hrz
  unfold linearInterpolate at hc
  refine ⟨⟨v.len, fun i => v.get i + scaleby * wt ny nz stride (axis r.x nx) (axis r.y ny) (axis r.z nz) i⟩, ?_, rfl, fun i => ?_⟩
  · unfold addInterpolateWeights
    simp only [hc, Option.bind_eq_bind, Option.bind_some, scaleFor]
    exact scatter_eq hs hlv ⟨x1, x2⟩ ⟨x3, x4⟩ ⟨y1, y2⟩ ⟨y3, y4⟩ ⟨z1, z2⟩ ⟨z3, z4⟩ _
  · refine ⟨_, fun t => combine_setEntry hs hlu ⟨x1, x2⟩ ⟨x3, x4⟩ ⟨y1, y2⟩ ⟨y3, y4⟩ ⟨z1, z2⟩ ⟨z3, z4⟩ i hc t,
      wt ny nz stride (axis r.x nx) (axis r.y ny) (axis r.z nz) i, ?_, rfl⟩
    have := (((hasDerivAt_id (u.get i)).sub_const (u.get i)).mul_const (wt ny nz stride (axis r.x nx) (axis r.y ny) (axis r.z nz) i)).const_add
      (mirrorInterp u nx ny nz stride r)
    simpa using this

end Mpb.MatGrid

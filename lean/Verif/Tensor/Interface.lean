import Verif.Tensor.GridProps
import Mathlib.LinearAlgebra.Matrix.Trace

/-!
# C84: which pixels are averaged
-/

namespace Mpb.Tensor
open Matrix Spec

/-- Two tensors differ visibly: the real or the imaginary parts of some entry differ by more than one millionth. -/
def Spec.Far (A B : HMat) : Prop :=
  ∃ i j, 1e-6 < |(toMatrix A i j).re - (toMatrix B i j).re| ∨ 1e-6 < |(toMatrix A i j).im - (toMatrix B i j).im|

/-- `c` is a corner of the unit cube around the origin, in `rank` dimensions. -/
def Spec.IsCorner (rank : ℕ) (c : V3 ℝ) : Prop :=
  |c.x| = 1 / 2 ∧ (if 2 ≤ rank then |c.y| = 1 / 2 else c.y = 0) ∧ (if 3 ≤ rank then |c.z| = 1 / 2 else c.z = 0)

/-- An interface goes through the pixel with centre `r` and sides `s`: at some corner the dielectric tensor is not that of the centre. -/
def Spec.Interface (epsilon : V3 ℝ → HMat × HMat) (rank : ℕ) (s r : V3 ℝ) : Prop :=
  ∃ c, IsCorner rank c ∧ Far (epsilon r).1 (epsilon ⟨r.x + c.x * s.x, r.y + c.y * s.y, r.z + c.z * s.z⟩).1

theorem differs_iff (A B : HMat) : differs A B = true ↔ Far A B := by
  classical
  have hs : small = 1e-6 := by unfold small; norm_num
  unfold differs Far
  rw [decide_eq_true_eq, hs]
  simp only [gt_iff_lt, Fin.exists_fin_succ, Fin.succ_zero_eq_one, toMatrix]
  constructor
  · rintro (h | h | h | h | h | h | h | h | h)
    · left; left; left; simpa using h
    · right; left; right; left; left; simpa using h
    · right; right; left; right; right; left; left; simpa using h
    · left; right; left; left; simpa using h
    · left; right; left; right; simpa using h
    · left; right; right; left; left; simpa using h
    · left; right; right; left; right; simpa using h
    · right; left; right; right; left; left; simpa using h
    · right; left; right; right; left; right; simpa using h
  · have e : ∀ x y : ℝ, |-x + y| = |x - y| := fun x y => by rw [← abs_neg]; congr 1; ring
    have hn : ¬ ((1e-6 : ℝ) < 0) := by norm_num
    simp [e, hn]
    tauto

theorem abs_half {x : ℝ} : |x| = 1 / 2 ↔ x = 1 / 2 ∨ x = -1 / 2 := by
  rw [abs_eq (by norm_num)]
  constructor <;> rintro (h | h) <;> [left; right; left; right] <;> linarith

theorem mem_corners {rank : ℕ} (h : 1 ≤ rank ∧ rank ≤ 3) (c : V3 ℝ) : c ∈ corners rank ↔ IsCorner rank c := by
  obtain ⟨x, y, z⟩ := c
  have hr : rank = 1 ∨ rank = 2 ∨ rank = 3 := by omega
  unfold IsCorner
  rcases hr with rfl | rfl | rfl <;> simp only [corners, List.mem_cons, List.not_mem_nil, V3.mk.injEq, abs_half] <;> norm_num <;> tauto

/-- C84, detection: in one, two and three dimensions the pixel is averaged exactly if the tensor at one of its 2, 4 or 8 corners differs from
the tensor at the centre. -/
theorem C84_detect (epsilon : V3 ℝ → HMat × HMat) {rank : ℕ} (h : 1 ≤ rank ∧ rank ≤ 3) (s r : V3 ℝ) :
    detectInterface epsilon rank s r = true ↔ Interface epsilon rank s r := by
  unfold detectInterface Interface
  rw [List.any_eq_true]
  exact exists_congr fun c => and_congr (mem_corners h c) (differs_iff _ _)

/-- The dimension of a grid. -/
def Spec.dimension (md : MData) : ℕ := if md.nz > 1 then 3 else if md.ny > 1 then 2 else 1

/-- The position of a grid point (lattice coordinates) and the sides of its pixel. -/
noncomputable def Spec.gridPos (md : MData) (i j k : ℕ) : V3 ℝ := ⟨i / md.nx, j / md.ny, k / md.nz⟩
noncomputable def Spec.sides (md : MData) : V3 ℝ := ⟨1 / md.nx, 1 / md.ny, 1 / md.nz⟩

/-- C84, away from interfaces: without an analytic average a pixel that no interface goes through gets the inverse tensor at its centre,
unaveraged; for every grid, lattice, mesh and material. -/
theorem C84_bulk {md md' : MData} {a : DielArgs} (h : setDielectric md a = .ok md') {i j k : ℕ} (hi : i < md.nx) (hj : j < md.ny) (hk : k < md.nz)
    (hm : a.mepsilon = none ∨ ∃ f, a.mepsilon = some f ∧ f (gridPos md i j k) = none)
    (hn : ¬ Interface a.epsilon (dimension md) (sides md) (gridPos md i j k)) :
    md'.heap md'.epsInv ((i * md.ny + j) * md.nz + k) = (a.epsilon (gridPos md i j k)).2 := by
  obtain ⟨f, hf, -, -, -, -, -, -, e4, -⟩ := setDielectric_ok h
  obtain ⟨h1, h2⟩ := hf i j k hi hj hk
  rw [e4, h2]
  have hg : (⟨i * (1 / md.nx), j * (1 / md.ny), k * (1 / md.nz)⟩ : V3 ℝ) = gridPos md i j k := by
    unfold gridPos
    simp only [mul_one_div]
  have hmn : a.mepsilon.bind (fun f => f (gridPos md i j k)) = none := by
    rcases hm with hm | ⟨f, hm, h0⟩
    · rw [hm]; rfl
    · rw [hm]; exact h0
  have hd : ¬ detectInterface a.epsilon (dimension md) (sides md) (gridPos md i j k) = true := by
    rw [C84_detect a.epsilon (by unfold dimension; split_ifs <;> omega)]
    exact hn
  rw [hg] at h1
  unfold voxel at h1
  dsimp only at h1
  split at h1
  · exact (Res.ok_inj h1).symm
  · rw [hmn] at h1
    dsimp only at h1
    have := (if_neg hd).symm.trans h1
    exact (Res.ok_inj this).symm

/-- The arithmetic mean of the inverse tensors at a list of points, entry by entry. -/
noncomputable def Spec.meanInv (epsilon : V3 ℝ → HMat × HMat) (l : List (V3 ℝ)) : Matrix (Fin 3) (Fin 3) ℂ :=
  (1 / (l.length : ℂ)) • (l.map fun q => toMatrix (epsilon q).2).sum

theorem toMatrix_add (A B : HMat) : toMatrix (hAdd A B) = toMatrix A + toMatrix B := by
  ext i j
  fin_cases i <;> fin_cases j <;> apply Complex.ext <;> simp [toMatrix, hAdd]
  all_goals ring

theorem toMatrix_scale (t : ℝ) (A : HMat) : toMatrix (hScale t A) = (t : ℂ) • toMatrix A := by
  ext i j
  fin_cases i <;> fin_cases j <;> apply Complex.ext <;> simp [toMatrix, hScale, mul_comm]

theorem toMatrix_zero : toMatrix hZero = 0 := by
  ext i j
  fin_cases i <;> fin_cases j <;> simp [toMatrix, hZero]

theorem toMatrix_foldl (epsilon : V3 ℝ → HMat × HMat) (l : List (V3 ℝ)) (A : HMat) :
    toMatrix (l.foldl (fun a q => hAdd a (epsilon q).2) A) = toMatrix A + (l.map fun q => toMatrix (epsilon q).2).sum := by
  induction l generalizing A with
  | nil => simp
  | cons q l ih => rw [List.foldl_cons, ih, toMatrix_add, List.map_cons, List.sum_cons, add_assoc]

/-- The trace of the dielectric tensor times the weight, for a point of the moment mesh around `r`. -/
noncomputable def Spec.charge (epsilon : V3 ℝ → HMat × HMat) (r : V3 ℝ) (p : V3 ℝ × ℝ) : ℝ :=
  (toMatrix (epsilon ⟨r.x + p.1.x, r.y + p.1.y, r.z + p.1.z⟩).1).trace.re * p.2

/-- The dipole moment of the dielectric function over the moment mesh, in lattice coordinates. -/
noncomputable def Spec.dipole (epsilon : V3 ℝ → HMat × HMat) (moment : List (V3 ℝ × ℝ)) (r : V3 ℝ) : V3 ℝ :=
  ⟨(moment.map fun p => charge epsilon r p * p.1.x).sum, (moment.map fun p => charge epsilon r p * p.1.y).sum,
   (moment.map fun p => charge epsilon r p * p.1.z).sum⟩

/-- The length of a vector. -/
noncomputable def Spec.length (v : V3 ℝ) : ℝ := Real.sqrt (v.x ^ 2 + v.y ^ 2 + v.z ^ 2)

theorem moment_foldl (epsilon : V3 ℝ → HMat × HMat) (r : V3 ℝ) (l : List (V3 ℝ × ℝ)) (acc : V3 ℝ) :
    l.foldl (fun (acc : V3 ℝ) (p : V3 ℝ × ℝ) =>
      let e := (epsilon ⟨r.x + p.1.x, r.y + p.1.y, r.z + p.1.z⟩).1
      let t := (e.m00 + e.m11 + e.m22) * p.2
      ⟨acc.x + t * p.1.x, acc.y + t * p.1.y, acc.z + t * p.1.z⟩) acc =
    ⟨acc.x + (dipole epsilon l r).x, acc.y + (dipole epsilon l r).y, acc.z + (dipole epsilon l r).z⟩ := by
  induction l generalizing acc with
  | nil => simp [dipole]
  | cons p l ih =>
    rw [List.foldl_cons, ih]
    have hc : charge epsilon r p = ((epsilon ⟨r.x + p.1.x, r.y + p.1.y, r.z + p.1.z⟩).1.m00 +
        (epsilon ⟨r.x + p.1.x, r.y + p.1.y, r.z + p.1.z⟩).1.m11 + (epsilon ⟨r.x + p.1.x, r.y + p.1.y, r.z + p.1.z⟩).1.m22) * p.2 := by
      simp [charge, toMatrix, Matrix.trace, Fin.sum_univ_three]
    simp only [dipole, List.map_cons, List.sum_cons, hc, V3.mk.injEq]
    refine ⟨by ring, by ring, by ring⟩

theorem interfaceNormal_eq (epsilon : V3 ℝ → HMat × HMat) (l : List (V3 ℝ × ℝ)) (R : M3 ℝ) (r : V3 ℝ) :
    interfaceNormal epsilon l R r = R.mulVec (dipole epsilon l r) := by
  unfold interfaceNormal
  rw [moment_foldl]
  simp

/-- C84, interfaces without a direction: where an interface is detected but the dipole moment of the dielectric function over the moment
mesh vanishes (up to one millionth, in Cartesian coordinates), so that there is no normal vector, the pixel gets the mean of the inverse
tensors over the mesh.  For every grid, lattice, material and mesh with sizes at least one that is not the one-point mesh. -/
theorem C84_no_normal {md md' : MData} {a : DielArgs} (h : setDielectric md a = .ok md') {i j k : ℕ} (hi : i < md.nx) (hj : j < md.ny) (hk : k < md.nz)
    (hx : 1 ≤ a.ms.x) (hy : 1 ≤ a.ms.y) (hz : 1 ≤ a.ms.z) (hne : a.ms.x * a.ms.y * a.ms.z ≠ 1)
    (hm : a.mepsilon = none ∨ ∃ f, a.mepsilon = some f ∧ f (gridPos md i j k) = none)
    (hn : Interface a.epsilon (dimension md) (sides md) (gridPos md i j k))
    (h0 : length (a.Rl.mulVec (dipole a.epsilon a.moment (gridPos md i j k))) ≤ 1e-6) :
    toMatrix (md'.heap md'.epsInv ((i * md.ny + j) * md.nz + k)) = meanInv a.epsilon (meshPoints a.ms (sides md) (gridPos md i j k)) := by
  obtain ⟨f, hf, -, -, -, -, -, -, e4, -⟩ := setDielectric_ok h
  obtain ⟨h1, h2⟩ := hf i j k hi hj hk
  rw [e4, h2]
  have hg : (⟨i * (1 / md.nx), j * (1 / md.ny), k * (1 / md.nz)⟩ : V3 ℝ) = gridPos md i j k := by
    unfold gridPos
    simp only [mul_one_div]
  have hmn : a.mepsilon.bind (fun f => f (gridPos md i j k)) = none := by
    rcases hm with hm | ⟨f, hm, h0⟩
    · rw [hm]; rfl
    · rw [hm]; exact h0
  have hd : detectInterface a.epsilon (dimension md) (sides md) (gridPos md i j k) = true := by
    rw [C84_detect a.epsilon (by unfold dimension; split_ifs <;> omega)]
    exact hn
  have hp : (getMesh a.ms).2 = a.ms.x * a.ms.y * a.ms.z := by
    simp only [getMesh, one_mul, max_eq_left hx, max_eq_left hy, max_eq_left hz]
  have hl : (meshPoints a.ms (sides md) (gridPos md i j k)).length = (a.ms.x * a.ms.y * a.ms.z).toNat := by
    rw [meshPoints, List.length_map, length_loop3]
    zify
    rw [Int.toNat_of_nonneg (by omega), Int.toNat_of_nonneg (by omega), Int.toNat_of_nonneg (by omega),
      Int.toNat_of_nonneg (by positivity)]
  rw [hg] at h1
  unfold voxel at h1
  dsimp only at h1
  rw [hp] at h1
  have h3 := (if_neg hne).symm.trans h1
  rw [hmn] at h3
  dsimp only at h3
  have h4 := (if_pos hd).symm.trans h3
  rw [interfaceNormal_eq] at h4
  have h5 := (if_neg (not_lt.mpr ?_)).symm.trans h4
  · rw [← Res.ok_inj h5, averageEpsInv_eq, toMatrix_scale, toMatrix_foldl, toMatrix_zero, zero_add, meanInv, hl]
    congr 1
    push_cast
    congr 1
    have : ((a.ms.x * a.ms.y * a.ms.z).toNat : ℤ) = a.ms.x * a.ms.y * a.ms.z := Int.toNat_of_nonneg (by positivity)
    have : (((a.ms.x * a.ms.y * a.ms.z).toNat : ℤ) : ℂ) = ((a.ms.x * a.ms.y * a.ms.z : ℤ) : ℂ) := by rw [this]
    push_cast at this
    exact this.symm
  · unfold Spec.length at h0
    rw [show small = 1e-6 by unfold small; norm_num]
    simpa only [sq] using h0

/-- A slab of dielectric constant 2 centred at 0 in a medium of constant 1, on four pixels, mesh of three, no moment mesh. -/
noncomputable def exArgs : DielArgs :=
  open Classical in
  ⟨⟨3, 1, 1⟩, M3.one, [], fun q => if q.x = 0 then (iso 2, iso (1 / 2)) else (iso 1, iso 1), none⟩
noncomputable def exMd : MData := ⟨4, 1, 1, fun _ _ => hZero, 1, 0, 0, none, 0⟩

/-- Non-vacuity: all the hypotheses of `C84_bulk` hold at pixel 2 of the example and all those of `C84_no_normal` at pixel 0. -/
example : ∃ md', setDielectric exMd exArgs = .ok md' ∧
    ¬ Interface exArgs.epsilon (dimension exMd) (sides exMd) (gridPos exMd 2 0 0) ∧
    Interface exArgs.epsilon (dimension exMd) (sides exMd) (gridPos exMd 0 0 0) ∧
    length (exArgs.Rl.mulVec (dipole exArgs.epsilon exArgs.moment (gridPos exMd 0 0 0))) ≤ 1e-6 ∧
    exArgs.mepsilon = none ∧ exArgs.ms.x * exArgs.ms.y * exArgs.ms.z ≠ 1 := by
  classical
  have hl : ∀ r, length (exArgs.Rl.mulVec (dipole exArgs.epsilon exArgs.moment r)) = 0 := by
    intro r
    simp [Spec.length, exArgs, dipole, M3.mulVec]
  have hs : (0 : ℝ) < small := by unfold small; norm_num
  have hv : ∀ rank s r, ∃ m, voxel exArgs rank s r = .ok m := by
    intro rank s r
    unfold voxel
    dsimp only
    split
    · exact ⟨_, rfl⟩
    · rw [show exArgs.mepsilon = none from rfl]
      dsimp only [Option.bind_none]
      split
      · rw [interfaceNormal_eq]
        have := hl r
        unfold Spec.length at this
        simp only [sq] at this
        refine ⟨_, if_neg ?_⟩
        rw [this]
        exact not_lt.mpr hs.le
      · exact ⟨_, rfl⟩
  obtain ⟨md', h⟩ := setDielectric_total exMd exArgs fun _ _ _ _ _ _ => hv _ _ _
  refine ⟨md', h, ?_, ?_, by rw [hl]; norm_num, rfl, by simp [exArgs]⟩
  · rintro ⟨⟨x, y, z⟩, ⟨hx, -⟩, hf⟩
    have h1 : ¬ ((2 : ℝ)⁻¹ + x * 4⁻¹ = 0) := by
      rcases abs_half.mp hx with rfl | rfl <;> norm_num
    rw [← differs_iff] at hf
    simp [exArgs, exMd, gridPos, sides, differs, iso] at hf
    norm_num at hf
    simp [h1, not_lt.mpr hs.le] at hf
  · refine ⟨⟨1 / 2, 0, 0⟩, by simp [IsCorner, dimension, exMd], ?_⟩
    rw [← differs_iff]
    simp [exArgs, exMd, gridPos, sides, differs, iso, small]
    norm_num

end Mpb.Tensor

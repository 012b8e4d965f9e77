import Verif.Invariance.Lemmas
import Verif.Moment.Table
import Verif.Tensor.GridProps
import Verif.Tensor.Interface

/-! # Property C95, the set-up of the grid: the unit of length -/

namespace Mpb.Invariance
open Mpb.Maxwell Mpb.Tensor Mpb.Tensor.Spec Spec

theorem maxDiam_scaled {s : ℝ} (hs : 0 < s) (rank : ℕ) (n : V3 ℕ) (R : M3 ℝ) :
    Moment.maxDiam rank n (scaled s R) = s * Moment.maxDiam rank n R := by
  have h : ∀ c : V3 ℝ, Real.sqrt ((V3.smul s c).x * (V3.smul s c).x + (V3.smul s c).y * (V3.smul s c).y + (V3.smul s c).z * (V3.smul s c).z) =
      s * Real.sqrt (c.x * c.x + c.y * c.y + c.z * c.z) := by
    intro c
    rw [← sqrt_scaled hs]
    congr 1
    simp only [V3.smul]; ring
  have hm : ∀ (l : List ℝ) (a : ℝ), (l.map (s * ·)).foldl max (s * a) = s * l.foldl max a := by
    intro l
    induction l with
    | nil => intro a; rfl
    | cons b l ih =>
      intro a
      rw [List.map_cons, List.foldl_cons, List.foldl_cons, ← mul_max_of_nonneg _ _ hs.le, ih]
  unfold Moment.maxDiam
  dsimp only
  rw [← hm, mul_zero, List.map_take]
  simp only [scaled, h, List.map_cons, List.map_nil, mul_div_assoc]

theorem offset_scaled {s : ℝ} (hs : 0 < s) (n : V3 ℕ) (R : M3 ℝ) (v : V3 ℝ) :
    Moment.offset n (scaled s R) (Velocity.latticeGm (scaled s R)) v = Moment.offset n R (Velocity.latticeGm R) v := by
  unfold Moment.offset
  dsimp only
  rw [latticeGm_scaled s hs.ne', maxDiam_scaled hs]
  ext <;> simp only [scaled, V3.smul, V3.dot] <;> field_simp

theorem momentMesh_scaled (fl : ℝ → ℝ) {s : ℝ} (hs : 0 < s) (n : V3 ℕ) (R : M3 ℝ) :
    Moment.getMomentMesh fl n (scaled s R) (Velocity.latticeGm (scaled s R)) = Moment.getMomentMesh fl n R (Velocity.latticeGm R) := by
  obtain ⟨tbl, -, h1, h2⟩ := Moment.getMomentMesh_eq fl n R (Velocity.latticeGm R)
  obtain ⟨tbl', -, h1', h2'⟩ := Moment.getMomentMesh_eq fl n (scaled s R) (Velocity.latticeGm (scaled s R))
  obtain rfl : tbl = tbl' := Option.some.inj (h1.symm.trans h1')
  rw [h2, h2']
  simp only [offset_scaled hs]

theorem dielLoop_congr {val val' : ℕ → ℕ → ℕ → Res HMat} (n2 n3 : ℕ) (l : List (ℕ × ℕ × ℕ)) (h : ∀ t ∈ l, val t.1 t.2.1 t.2.2 = val' t.1 t.2.1 t.2.2)
    (st : (ℕ → HMat) × ℝ) : dielLoop val n2 n3 l st = dielLoop val' n2 n3 l st := by
  induction l generalizing st with
  | nil => rfl
  | cons t l ih =>
    obtain ⟨i, j, k⟩ := t
    unfold dielLoop
    rw [← h (i, j, k) List.mem_cons_self]
    dsimp only
    cases val i j k with
    | ok m => exact ih (fun t ht => h t (List.mem_cons_of_mem _ ht)) _
    | checkFailed => rfl
    | nonFinite => rfl

theorem setDielectric_congr (md : MData) (a a' : DielArgs)
    (h : ∀ i j k, i < md.nx → j < md.ny → k < md.nz →
      voxel a (if md.nz > 1 then 3 else if md.ny > 1 then 2 else 1) ⟨1 / md.nx, 1 / md.ny, 1 / md.nz⟩ (gridPos md i j k) =
      voxel a' (if md.nz > 1 then 3 else if md.ny > 1 then 2 else 1) ⟨1 / md.nx, 1 / md.ny, 1 / md.nz⟩ (gridPos md i j k)) :
    setDielectric md a = setDielectric md a' := by
  unfold setDielectric
  dsimp only
  rw [dielLoop_congr (val := fun i j k : ℕ => voxel a (if md.nz > 1 then 3 else if md.ny > 1 then 2 else 1)
    ⟨1 / md.nx, 1 / md.ny, 1 / md.nz⟩ ⟨i * (1 / md.nx), j * (1 / md.ny), k * (1 / md.nz)⟩)]
  intro t ht
  rw [mem_loop3] at ht
  have := h t.1 t.2.1 t.2.2 ht.1 ht.2.1 ht.2.2
  simpa [gridPos, div_eq_mul_inv] using this

theorem mulVec_scaled (s : ℝ) (R : M3 ℝ) (v : V3 ℝ) : (scaled s R).mulVec v = V3.smul s (R.mulVec v) := by
  ext <;> simp only [scaled, M3.mulVec, V3.smul] <;> ring

theorem voxel_scaled {s : ℝ} (hs : 0 < s) (a : DielArgs) (rank : ℕ) (S r : V3 ℝ)
    (h : length (a.Rl.mulVec (dipole a.epsilon a.moment r)) > small ↔ s * length (a.Rl.mulVec (dipole a.epsilon a.moment r)) > small) :
    voxel { a with Rl := scaled s a.Rl } rank S r = voxel a rank S r := by
  classical
  have hn : interfaceNormal a.epsilon a.moment (scaled s a.Rl) r = V3.smul s (interfaceNormal a.epsilon a.moment a.Rl r) := by
    rw [interfaceNormal_eq, interfaceNormal_eq, mulVec_scaled]
  rw [← interfaceNormal_eq] at h
  unfold voxel
  dsimp only
  rw [hn]
  set n := interfaceNormal a.epsilon a.moment a.Rl r with hndef
  have hl : Real.sqrt ((V3.smul s n).x * (V3.smul s n).x + (V3.smul s n).y * (V3.smul s n).y + (V3.smul s n).z * (V3.smul s n).z) =
      s * Real.sqrt (n.x * n.x + n.y * n.y + n.z * n.z) := by
    rw [← sqrt_scaled hs]
    congr 1
    simp only [V3.smul]; ring
  rw [hl]
  have hL : length n = Real.sqrt (n.x * n.x + n.y * n.y + n.z * n.z) := by
    unfold Spec.length; congr 1; ring
  rw [hL] at h
  have hk : Real.sqrt (n.x * n.x + n.y * n.y + n.z * n.z) > small →
      ∀ S prodInv, kottkeMesh a.epsilon a.ms S r prodInv (V3.smul s n) (s * Real.sqrt (n.x * n.x + n.y * n.y + n.z * n.z)) =
      kottkeMesh a.epsilon a.ms S r prodInv n (Real.sqrt (n.x * n.x + n.y * n.y + n.z * n.z)) := by
    intro hgt S prodInv
    have h0 : Real.sqrt (n.x * n.x + n.y * n.y + n.z * n.z) ≠ 0 := by
      have : (0 : ℝ) < small := by unfold small; norm_num
      linarith
    unfold kottkeMesh
    dsimp only
    have : (⟨(V3.smul s n).x * (1 / (s * Real.sqrt (n.x * n.x + n.y * n.y + n.z * n.z))), (V3.smul s n).y * (1 / (s * Real.sqrt (n.x * n.x + n.y * n.y + n.z * n.z))),
        (V3.smul s n).z * (1 / (s * Real.sqrt (n.x * n.x + n.y * n.y + n.z * n.z)))⟩ : V3 ℝ) =
        ⟨n.x * (1 / Real.sqrt (n.x * n.x + n.y * n.y + n.z * n.z)), n.y * (1 / Real.sqrt (n.x * n.x + n.y * n.y + n.z * n.z)),
         n.z * (1 / Real.sqrt (n.x * n.x + n.y * n.y + n.z * n.z))⟩ := by
      ext <;> simp only [V3.smul] <;> field_simp
    rw [this]
  by_cases hgt : Real.sqrt (n.x * n.x + n.y * n.y + n.z * n.z) > small
  · simp only [if_pos hgt, if_pos (h.mp hgt), hk hgt]
  · simp only [if_neg hgt, if_neg (fun hc => hgt (h.mpr hc))]

/-- C95, set-up: the tensors stored for a lattice and for the same lattice in another unit of length are the same -- same outcome of
`set_maxwell_dielectric`, same arrays -- for every grid, material, mesh and lattice, provided no length of an interface normal is moved by
the change of unit across the threshold of one millionth.  Missing: without that proviso it is false, `C95_setup_refuted`. -/
theorem C95_setup_partial (fl : ℝ → ℝ) (md : MData) (Rm : M3 ℝ) (ms : V3 ℤ) (epsilon : V3 ℝ → HMat × HMat)
    (mepsilon : Option (V3 ℝ → Option HMat)) {s : ℝ} (hs : 0 < s)
    (h : ∀ mesh, Moment.getMomentMesh fl ⟨md.nx, md.ny, md.nz⟩ Rm (Velocity.latticeGm Rm) = some mesh →
      ∀ i j k, i < md.nx → j < md.ny → k < md.nz →
        let L := length (Rm.mulVec (dipole epsilon mesh (gridPos md i j k)))
        (L > 1e-6 ↔ s * L > 1e-6)) :
    setupDielectric fl md (scaled s Rm) ms epsilon mepsilon = setupDielectric fl md Rm ms epsilon mepsilon := by
  unfold setupDielectric
  rw [momentMesh_scaled fl hs]
  obtain ⟨tbl, -, -, h2⟩ := Moment.getMomentMesh_eq fl ⟨md.nx, md.ny, md.nz⟩ Rm (Velocity.latticeGm Rm)
  rw [h2, Option.map_some, Option.map_some]
  congr 1
  refine setDielectric_congr md _ _ fun i j k hi hj hk => ?_
  refine voxel_scaled hs ⟨ms, Rm, _, epsilon, mepsilon⟩ _ _ _ ?_
  have := h _ h2 i j k hi hj hk
  rw [show (small : ℝ) = 1e-6 by unfold small; norm_num]
  exact this

/-! ### The threshold of one millionth is a length, not a ratio -/

/-- Two layers per period, of dielectric constants 4 and 1. -/
noncomputable def layers (q : V3 ℝ) : HMat × HMat :=
  open Classical in
  if Int.fract q.x < 1 / 2 then (iso 4, iso (1 / 4)) else (iso 1, iso 1)

/-- Two grid points, nothing stored yet. -/
noncomputable def layersMd : MData := ⟨2, 1, 1, fun _ _ => hZero, 1, 0, 0, none, 0⟩

theorem layers_physical (ms : V3 ℤ) (R : M3 ℝ) (m : List (V3 ℝ × ℝ)) : Tensor.Spec.Physical ⟨ms, R, m, layers, none⟩ := by
  have hpd : ∀ e : ℝ, 0 < e → PosDef (iso e) := by
    intro e he
    rw [posDef_iff_quad]
    intro x y z h
    simp only [quad, iso]
    have h1 := nsq_nonneg x
    have h2 := nsq_nonneg y
    have h3 := nsq_nonneg z
    have h4 : 0 < nsq x + nsq y + nsq z := by
      rcases h with h | h | h <;> have := nsq_pos h <;> linarith
    have : 0 < e * (nsq x + nsq y + nsq z) := mul_pos he h4
    simp
    linarith
  have hinv : ∀ e : ℝ, e ≠ 0 → toMatrix (iso e) * toMatrix (iso (1 / e)) = 1 := by
    intro e he
    have : (e : ℂ) ≠ 0 := by exact_mod_cast he
    ext i j
    fin_cases i <;> fin_cases j <;> simp [toMatrix, iso, Matrix.mul_apply, Fin.sum_univ_three, this]
  refine ⟨fun q => ?_, fun f hf => by cases hf⟩
  simp only [layers]
  split_ifs
  · exact ⟨hpd 4 (by norm_num), hinv 4 (by norm_num)⟩
  · refine ⟨hpd 1 (by norm_num), ?_⟩
    have := hinv 1 one_ne_zero
    rwa [div_one] at this

/-- The moment mesh of the example. -/
noncomputable def layersMesh : List (V3 ℝ × ℝ) := [(⟨1 / 4, 0, 0⟩, 1 / 2), (⟨-1 / 4, 0, 0⟩, 1 / 2)]

theorem layers_mesh (fl : ℝ → ℝ) : Moment.getMomentMesh fl ⟨2, 1, 1⟩ M3.one (Velocity.latticeGm M3.one) = some layersMesh := by
  obtain ⟨tbl, -, h1, h2⟩ := Moment.getMomentMesh_eq fl ⟨2, 1, 1⟩ M3.one (Velocity.latticeGm M3.one)
  rw [h2]
  have : tbl = [(⟨1, 0, 0⟩, 1 / 2), (⟨-1, 0, 0⟩, 1 / 2)] := by
    have := h1.symm
    simpa [Moment.sphereQuad, Moment.rankOf] using this
  subst this
  simp [layersMesh, Moment.offset, Moment.rankOf, Moment.meshR, Moment.maxDiam, Velocity.latticeGm, M3.one, MpbData.inverse, M3.det, M3.transpose, V3.dot, V3.smul, V3.cross]
  norm_num

theorem layers_low {q : V3 ℝ} (z : ℤ) (h0 : 0 ≤ q.x - z) (h : q.x - z < 1 / 2) : layers q = (iso 4, iso (1 / 4)) := by
  have : Int.fract q.x = q.x - z := by rw [Int.fract_eq_iff]; exact ⟨h0, by linarith, z, by ring⟩
  unfold layers
  rw [this, if_pos h]

theorem layers_high {q : V3 ℝ} (z : ℤ) (h0 : 1 / 2 ≤ q.x - z) (h : q.x - z < 1) : layers q = (iso 1, iso 1) := by
  have : Int.fract q.x = q.x - z := by rw [Int.fract_eq_iff]; exact ⟨by linarith, h, z, by ring⟩
  unfold layers
  rw [this, if_neg (not_lt.mpr h0)]

theorem layers_dipole : dipole layers layersMesh ⟨0, 0, 0⟩ = ⟨9 / 8, 0, 0⟩ := by
  have h1 := layers_low (q := ⟨0 + 1 / 4, 0 + 0, 0 + 0⟩) 0 (by norm_num) (by norm_num)
  have h2 := layers_high (q := ⟨0 + -1 / 4, 0 + 0, 0 + 0⟩) (-1) (by norm_num) (by norm_num)
  simp only [dipole, layersMesh, charge, List.map_cons, List.map_nil, List.sum_cons, List.sum_nil, h1, h2]
  simp [toMatrix, iso, Matrix.trace, Fin.sum_univ_three]
  norm_num

theorem layers_points : meshPoints ⟨2, 1, 1⟩ ⟨1 / 2, 1, 1⟩ ⟨0, 0, 0⟩ = [⟨-1 / 8, 0, 0⟩, ⟨1 / 8, 0, 0⟩] := by
  simp [meshPoints, loop3, getMesh, List.range_succ]
  norm_num

theorem layers_detect : detectInterface layers 1 ⟨1 / 2, 1, 1⟩ ⟨0, 0, 0⟩ = true := by
  have h0 := layers_low (q := ⟨0, 0, 0⟩) 0 (by norm_num) (by norm_num)
  have h2 := layers_high (q := ⟨0 + -1 / 2 * (1 / 2), 0 + 0 * 1, 0 + 0 * 1⟩) (-1) (by norm_num) (by norm_num)
  simp only [detectInterface, corners, List.any_cons, h0, h2, Bool.or_eq_true]
  left
  rw [differs_iff]
  refine ⟨0, 0, Or.inl ?_⟩
  simp [toMatrix, iso]
  norm_num

theorem layers_unit : voxel ⟨⟨2, 1, 1⟩, M3.one, layersMesh, layers, none⟩ 1 ⟨1 / 2, 1, 1⟩ ⟨0, 0, 0⟩ = .ok ⟨5 / 8, 2 / 5, 2 / 5, 0, 0, 0⟩ := by
  classical
  have hp1 := layers_high (q := ⟨-1 / 8, 0, 0⟩) (-1) (by norm_num) (by norm_num)
  have hp2 := layers_low (q := ⟨1 / 8, 0, 0⟩) 0 (by norm_num) (by norm_num)
  have hR : rotationMatrix ⟨1, 0, 0⟩ = ⟨⟨1, 0, 0⟩, ⟨0, 0, 1⟩, ⟨0, -1, 0⟩⟩ := by
    unfold rotationMatrix
    rw [if_pos (by norm_num)]
    simp
  have ho : Matrix.transpose (rows ⟨⟨1, 0, 0⟩, ⟨0, 0, 1⟩, ⟨0, -1, 0⟩⟩) * rows ⟨⟨1, 0, 0⟩, ⟨0, 0, 1⟩, ⟨0, -1, 0⟩⟩ = 1 := by
    ext i j
    fin_cases i <;> fin_cases j <;> simp [rows, Matrix.mul_apply, Fin.sum_univ_three]
  have hn : M3.one.mulVec (⟨9 / 8, 0, 0⟩ : V3 ℝ) = ⟨9 / 8, 0, 0⟩ := by simp [M3.one, M3.mulVec]
  have hl : Real.sqrt (9 / 8 * (9 / 8) + 0 * 0 + 0 * 0) = 9 / 8 := by
    rw [show (9 / 8 * (9 / 8) + 0 * 0 + 0 * 0 : ℝ) = (9 / 8) * (9 / 8) by ring, Real.sqrt_mul_self (by norm_num)]
  unfold voxel
  dsimp only
  rw [if_neg (by simp [getMesh]), layers_detect, interfaceNormal_eq, layers_dipole, hn]
  dsimp only [Option.bind_none]
  rw [if_pos rfl, hl, if_pos (by unfold small; norm_num)]
  unfold kottkeMesh
  dsimp only
  rw [show (⟨9 / 8 * (1 / (9 / 8)), 0 * (1 / (9 / 8)), 0 * (1 / (9 / 8))⟩ : V3 ℝ) = ⟨1, 0, 0⟩ by norm_num, hR, layers_points]
  simp only [List.foldl_cons, List.foldl_nil, hp1, hp2, rotate_iso ho]
  have e : hRotate (untau (hScale (1 / ((getMesh ⟨2, 1, 1⟩).2 : ℝ)) (hAdd (hAdd hZero (tau (iso 1))) (tau (iso 4)))))
      (swapRot ⟨⟨1, 0, 0⟩, ⟨0, 0, 1⟩, ⟨0, -1, 0⟩⟩) = ⟨8 / 5, 5 / 2, 5 / 2, 0, 0, 0⟩ := by
    simp [getMesh, hRotate, rotateMem, rotatePass, untau, hScale, hAdd, hZero, tau, iso, swapRot, nsq, mulConj, HMat.ext_iff, Complex.ext_iff]
    norm_num
  rw [e]
  unfold hInvert
  simp

theorem layers_small : voxel ⟨⟨2, 1, 1⟩, scaled 1e-7 M3.one, layersMesh, layers, none⟩ 1 ⟨1 / 2, 1, 1⟩ ⟨0, 0, 0⟩ = .ok (iso (5 / 8)) := by
  classical
  have hp1 := layers_high (q := ⟨-1 / 8, 0, 0⟩) (-1) (by norm_num) (by norm_num)
  have hp2 := layers_low (q := ⟨1 / 8, 0, 0⟩) 0 (by norm_num) (by norm_num)
  have hn : (scaled 1e-7 M3.one).mulVec (⟨9 / 8, 0, 0⟩ : V3 ℝ) = ⟨9 / 8 * 1e-7, 0, 0⟩ := by
    simp [scaled, V3.smul, M3.one, M3.mulVec]; norm_num
  have hl : Real.sqrt (9 / 8 * 1e-7 * (9 / 8 * 1e-7) + 0 * 0 + 0 * 0) = 9 / 8 * 1e-7 := by
    rw [show (9 / 8 * 1e-7 * (9 / 8 * 1e-7) + 0 * 0 + 0 * 0 : ℝ) = (9 / 8 * 1e-7) * (9 / 8 * 1e-7) by ring, Real.sqrt_mul_self (by norm_num)]
  unfold voxel
  dsimp only
  rw [if_neg (by simp [getMesh]), layers_detect, interfaceNormal_eq, layers_dipole, hn]
  dsimp only [Option.bind_none]
  rw [if_pos rfl, hl, if_neg (by unfold small; norm_num)]
  unfold averageEpsInv
  dsimp only
  rw [layers_points]
  simp only [List.foldl_cons, List.foldl_nil, hp1, hp2]
  simp [hAdd, hZero, iso, getMesh, HMat.ext_iff, Complex.ext_iff]
  norm_num

/-- C95, set-up, refuted: two layers of dielectric constants 4 and 1 on two grid points, averaged over a mesh of two.  With a lattice
constant of 1 the interface pixel gets the inverse of the arithmetic mean along the layers, 2/5; with a lattice constant of one
ten-millionth -- the same structure in other units -- the dipole moment, which is a length, falls below the threshold and the pixel gets
the mean of the inverses, 5/8.  (The threshold `SMALL` is compared with the length of the unnormalised normal, maxwell_eps.c:653.) -/
theorem C95_setup_refuted (fl : ℝ → ℝ) : ∃ md' md'',
    setupDielectric fl layersMd M3.one ⟨2, 1, 1⟩ layers none = some (.ok md') ∧
    setupDielectric fl layersMd (scaled 1e-7 M3.one) ⟨2, 1, 1⟩ layers none = some (.ok md'') ∧
    (md'.heap md'.epsInv 0).m11 = 2 / 5 ∧ (md''.heap md''.epsInv 0).m11 = 5 / 8 := by
  have hm := layers_mesh fl
  obtain ⟨md', h, -⟩ := C61_positive layersMd _ (layers_physical ⟨2, 1, 1⟩ M3.one layersMesh) (by norm_num) (by norm_num) (by norm_num)
  obtain ⟨md'', h', -⟩ := C61_positive layersMd _ (layers_physical ⟨2, 1, 1⟩ (scaled 1e-7 M3.one) layersMesh) (by norm_num) (by norm_num) (by norm_num)
  have h0 : (⟨((0 : ℕ) : ℝ) * (1 / (layersMd.nx : ℝ)), ((0 : ℕ) : ℝ) * (1 / (layersMd.ny : ℝ)), ((0 : ℕ) : ℝ) * (1 / (layersMd.nz : ℝ))⟩ : V3 ℝ) = ⟨0, 0, 0⟩ := by
    simp
  have hs : (⟨1 / (layersMd.nx : ℝ), 1 / (layersMd.ny : ℝ), 1 / (layersMd.nz : ℝ)⟩ : V3 ℝ) = ⟨1 / 2, 1, 1⟩ := by simp [layersMd]
  refine ⟨md', md'', ?_, ?_, ?_, ?_⟩
  · unfold setupDielectric
    rw [show (⟨layersMd.nx, layersMd.ny, layersMd.nz⟩ : V3 ℕ) = ⟨2, 1, 1⟩ from rfl, hm, Option.map_some, h]
  · unfold setupDielectric
    rw [show (⟨layersMd.nx, layersMd.ny, layersMd.nz⟩ : V3 ℕ) = ⟨2, 1, 1⟩ from rfl, momentMesh_scaled fl (by norm_num), hm, Option.map_some, h']
  · obtain ⟨f, hf, -, -, -, -, -, -, e4, -⟩ := setDielectric_ok h
    obtain ⟨h1, h2⟩ := hf 0 0 0 (by decide) (by decide) (by decide)
    rw [h0, hs] at h1
    have := Res.ok_inj (h1.symm.trans layers_unit)
    rw [e4]
    have e : md'.heap layersMd.epsInv 0 = f (0, 0, 0) := h2
    rw [e, this]
  · obtain ⟨f, hf, -, -, -, -, -, -, e4, -⟩ := setDielectric_ok h'
    obtain ⟨h1, h2⟩ := hf 0 0 0 (by decide) (by decide) (by decide)
    rw [h0, hs] at h1
    have := Res.ok_inj (h1.symm.trans layers_small)
    rw [e4]
    have e : md''.heap layersMd.epsInv 0 = f (0, 0, 0) := h2
    rw [e, this]
    rfl

/-- Non-vacuity of `C95_setup_partial`: the same two layers with lattice constants 1 and 2. -/
example (fl : ℝ → ℝ) : setupDielectric fl layersMd (scaled 2 M3.one) ⟨2, 1, 1⟩ layers none = setupDielectric fl layersMd M3.one ⟨2, 1, 1⟩ layers none := by
  refine C95_setup_partial fl layersMd M3.one _ _ _ (by norm_num) fun mesh hm i j k hi hj hk => ?_
  obtain rfl : layersMesh = mesh := Option.some.inj ((layers_mesh fl).symm.trans hm)
  have hone : ∀ v : V3 ℝ, M3.one.mulVec v = v := fun v => by simp [M3.one, M3.mulVec]
  have hL : ∀ x : ℝ, length ⟨x, 0, 0⟩ = |x| := fun x => by simp [Spec.length, Real.sqrt_sq_eq_abs]
  dsimp only
  rw [hone]
  have hj0 : j = 0 := by have : layersMd.ny = 1 := rfl; omega
  have hk0 : k = 0 := by have : layersMd.nz = 1 := rfl; omega
  have hi2 : i = 0 ∨ i = 1 := by have : layersMd.nx = 2 := rfl; omega
  subst hj0 hk0
  rcases hi2 with rfl | rfl
  · rw [show gridPos layersMd 0 0 0 = ⟨0, 0, 0⟩ by simp [gridPos], layers_dipole, hL]
    norm_num [abs_of_pos]
  · have e : dipole layers layersMesh (gridPos layersMd 1 0 0) = ⟨-9 / 8, 0, 0⟩ := by
      have h1 := layers_high (q := ⟨1 / 2 + 1 / 4, 0 + 0, 0 + 0⟩) 0 (by norm_num) (by norm_num)
      have h2 := layers_low (q := ⟨1 / 2 + -1 / 4, 0 + 0, 0 + 0⟩) 0 (by norm_num) (by norm_num)
      rw [show gridPos layersMd 1 0 0 = ⟨1 / 2, 0, 0⟩ by simp [gridPos, layersMd]]
      simp only [dipole, layersMesh, charge, List.map_cons, List.map_nil, List.sum_cons, List.sum_nil, h1, h2]
      simp [toMatrix, iso, Matrix.trace, Fin.sum_univ_three]
      norm_num
    rw [e, hL, abs_of_neg (by norm_num)]
    norm_num

end Mpb.Invariance

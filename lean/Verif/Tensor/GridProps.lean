import Verif.Tensor.Props

/-!
# Dielectric tensors on the grid: properties C12, C13, C61, C62
-/

namespace Mpb.Tensor
open Matrix Spec

/-! ## C12: the averaging mesh -/

/-- The midpoint of the `i`-th of `m` equal parts of an interval of length `s` centred at `r`. -/
noncomputable def Spec.midpoint (m : ℤ) (i : ℕ) (s r : ℝ) : ℝ := r - s / 2 + ((i : ℝ) + 1 / 2) * (s / m)

/-- C12, partial: for mesh sizes at least one the sample points are exactly the midpoints of the `mx * my * mz` equal boxes
into which the pixel (centre `r`, sides `s`) is divided, each visited once, and their number is the normalisation `mesh_prod`.
Missing: mesh sizes below one, for which the claim is false (`C12_refuted`). -/
theorem C12_mesh_partial (ms : V3 ℤ) (hx : 1 ≤ ms.x) (hy : 1 ≤ ms.y) (hz : 1 ≤ ms.z) (s r : V3 ℝ) :
    ((meshPoints ms s r).length : ℤ) = ms.x * ms.y * ms.z ∧ (getMesh ms).2 = ms.x * ms.y * ms.z ∧
    ∀ i j k : ℕ, (i : ℤ) < ms.x → (j : ℤ) < ms.y → (k : ℤ) < ms.z →
      (meshPoints ms s r)[(i * ms.y.toNat + j) * ms.z.toNat + k]? =
        some ⟨Spec.midpoint ms.x i s.x r.x, Spec.midpoint ms.y j s.y r.y, Spec.midpoint ms.z k s.z r.z⟩ := by
  refine ⟨by rw [length_meshPoints hx hy hz, prod_getMesh hx hy hz], prod_getMesh hx hy hz, ?_⟩
  intro i j k hi hj hk
  unfold meshPoints
  rw [List.getElem?_map, getElem?_loop3 (by omega) (by omega) (by omega)]
  have key : ∀ (m : ℤ), 1 ≤ m → ∀ (q : ℕ) (s r : ℝ), r + ((q : ℝ) - ((max m 1 - 1 : ℤ) : ℝ) * (1 / 2)) * (s / ((max 1 m : ℤ) : ℝ)) =
      Spec.midpoint m q s r := by
    intro m hm q s r
    rw [max_eq_left hm, max_eq_right hm]
    unfold Spec.midpoint
    have : (m : ℝ) ≠ 0 := by
      have : m ≠ 0 := by omega
      exact_mod_cast this
    push_cast
    field_simp
    ring
  simp only [Option.map_some, getMesh, key _ hx, key _ hy, key _ hz]

/-- C12: the mesh is symmetric about the pixel centre: the mirror image of every sample point is a sample point. -/
theorem C12_symmetric (ms : V3 ℤ) (s r q : V3 ℝ) (hq : q ∈ meshPoints ms s r) :
    (⟨2 * r.x - q.x, 2 * r.y - q.y, 2 * r.z - q.z⟩ : V3 ℝ) ∈ meshPoints ms s r := by
  unfold meshPoints at hq ⊢
  simp only [List.mem_map, mem_loop3] at hq ⊢
  obtain ⟨⟨i, j, k⟩, ⟨hi, hj, hk⟩, rfl⟩ := hq
  simp only at hi hj hk
  refine ⟨(ms.x.toNat - 1 - i, ms.y.toNat - 1 - j, ms.z.toNat - 1 - k), ⟨by simp only; omega, by simp only; omega, by simp only; omega⟩, ?_⟩
  have key : ∀ (m : ℤ) (q : ℕ), q < m.toNat → ∀ s r : ℝ,
      r + (((m.toNat - 1 - q : ℕ) : ℝ) - ((max m 1 - 1 : ℤ) : ℝ) * (1 / 2)) * s =
      2 * r - (r + ((q : ℝ) - ((max m 1 - 1 : ℤ) : ℝ) * (1 / 2)) * s) := by
    intro m q hq s r
    have hm : 1 ≤ m := by omega
    rw [max_eq_left hm]
    have e : ((m.toNat - 1 - q : ℕ) : ℝ) = (m : ℝ) - 1 - q := by
      have h1 : ((m.toNat - 1 - q : ℕ) : ℤ) = m - 1 - q := by omega
      have h2 : (((m.toNat - 1 - q : ℕ) : ℤ) : ℝ) = ((m - 1 - q : ℤ) : ℝ) := by rw [h1]
      push_cast at h2
      exact_mod_cast h2
    rw [e]
    push_cast
    ring
  simp only [getMesh, key _ _ hi, key _ _ hj, key _ _ hk]

/-- C12: every sample point lies strictly inside the pixel. -/
theorem C12_inside (ms : V3 ℤ) (s r q : V3 ℝ) (hs : 0 < s.x ∧ 0 < s.y ∧ 0 < s.z) (hq : q ∈ meshPoints ms s r) :
    |q.x - r.x| < s.x / 2 ∧ |q.y - r.y| < s.y / 2 ∧ |q.z - r.z| < s.z / 2 := by
  unfold meshPoints at hq
  simp only [List.mem_map, mem_loop3] at hq
  obtain ⟨⟨i, j, k⟩, ⟨hi, hj, hk⟩, rfl⟩ := hq
  simp only at hi hj hk
  have key : ∀ (m : ℤ) (q : ℕ), q < m.toNat → ∀ s r : ℝ, 0 < s →
      |r + ((q : ℝ) - ((max m 1 - 1 : ℤ) : ℝ) * (1 / 2)) * (s / ((max 1 m : ℤ) : ℝ)) - r| < s / 2 := by
    intro m q hq s r hs
    have hm : 1 ≤ m := by omega
    rw [max_eq_left hm, max_eq_right hm]
    have hm' : (1 : ℝ) ≤ (m : ℝ) := by exact_mod_cast hm
    have hq' : (q : ℝ) ≤ (m : ℝ) - 1 := by
      have : (q : ℤ) ≤ m - 1 := by omega
      exact_mod_cast this
    have hq0 : (0 : ℝ) ≤ q := Nat.cast_nonneg q
    have e : r + ((q : ℝ) - ((m - 1 : ℤ) : ℝ) * (1 / 2)) * (s / (m : ℝ)) - r =
        s * (((q : ℝ) - ((m : ℝ) - 1) / 2) / m) := by
      push_cast; field_simp; ring
    rw [e, abs_mul, abs_of_pos hs]
    have h2 : |((q : ℝ) - ((m : ℝ) - 1) / 2) / m| < 1 / 2 := by
      rw [abs_div, abs_of_pos (by linarith : (0 : ℝ) < m), div_lt_iff₀ (by linarith), abs_lt]
      constructor <;> linarith
    nlinarith
  exact ⟨key _ _ hi _ _ hs.1, key _ _ hj _ _ hs.2.1, key _ _ hk _ _ hs.2.2⟩

theorem voxel_average (a : DielArgs) (rank : ℕ) (s r : V3 ℝ) (h1 : (getMesh a.ms).2 ≠ 1) (h2 : a.mepsilon = none)
    (h3 : detectInterface a.epsilon rank s r = true)
    (h4 : Real.sqrt ((interfaceNormal a.epsilon a.moment a.Rl r).x * (interfaceNormal a.epsilon a.moment a.Rl r).x +
      (interfaceNormal a.epsilon a.moment a.Rl r).y * (interfaceNormal a.epsilon a.moment a.Rl r).y +
      (interfaceNormal a.epsilon a.moment a.Rl r).z * (interfaceNormal a.epsilon a.moment a.Rl r).z) ≤ small) :
    voxel a rank s r = .ok (averageEpsInv a.epsilon a.ms s r (1 / ((getMesh a.ms).2 : ℝ))) := by
  classical
  unfold voxel
  dsimp only
  rw [if_neg h1, h2]
  simp only [Option.bind_none, h3, if_true]
  rw [if_neg (not_lt.mpr h4)]

/-- C12 as stated ("any mesh sizes < 1 are taken to be 1", the comment of `get_mesh`) is false: with mesh size `(0, 3, 3)` the
number of averaged samples is 0 while the normalisation is 9 (the size `(1, 3, 3)` it should stand for has 9 samples), and at a
voxel with a detected interface but no normal `set_maxwell_dielectric` stores the zero tensor although the inverse dielectric
function is the positive definite `1` or `1/2` everywhere. -/
theorem C12_refuted :
    (meshPoints ⟨0, 3, 3⟩ ⟨1, 1, 1⟩ ⟨0, 0, 0⟩).length = 0 ∧ (getMesh ⟨0, 3, 3⟩).2 = 9 ∧
    (meshPoints ⟨1, 3, 3⟩ ⟨1, 1, 1⟩ ⟨0, 0, 0⟩).length = 9 ∧
    ∃ a : DielArgs, a.ms = ⟨0, 3, 3⟩ ∧ (∀ q, a.epsilon q = (iso 1, iso 1) ∨ a.epsilon q = (iso 2, iso (1 / 2))) ∧
      voxel a 1 ⟨1, 1, 1⟩ ⟨0, 0, 0⟩ = .ok hZero := by
  classical
  refine ⟨?_, ?_, ?_, ?_⟩
  · simp [meshPoints, length_loop3]
  · simp [getMesh]
  · simp [meshPoints, length_loop3]
  · refine ⟨⟨⟨0, 3, 3⟩, M3.one, [], fun q => if q.x = 0 then (iso 2, iso (1 / 2)) else (iso 1, iso 1), none⟩, rfl, ?_, ?_⟩
    · intro q
      by_cases h : q.x = 0 <;> simp [h]
    · have hd : detectInterface (fun q : V3 ℝ => if q.x = 0 then (iso 2, iso (1 / 2)) else (iso 1, iso 1)) 1 ⟨1, 1, 1⟩ ⟨0, 0, 0⟩ =
          true := by
        unfold detectInterface corners differs small iso
        norm_num
      have hm : meshPoints ⟨0, 3, 3⟩ ⟨1, 1, 1⟩ ⟨0, 0, 0⟩ = [] := by
        apply List.eq_nil_of_length_eq_zero
        simp [meshPoints, length_loop3]
      rw [voxel_average _ _ _ _ (by simp [getMesh]) rfl hd (by norm_num [interfaceNormal, M3.mulVec, small]),
        averageEpsInv_eq, hm]
      refine congrArg Res.ok ?_
      simp [hScale, hZero]
      congr

/-- Non-vacuity: the default mesh of mpb in three dimensions. -/
example : ((meshPoints ⟨3, 3, 3⟩ ⟨1, 1, 1⟩ ⟨0, 0, 0⟩).length : ℤ) = 27 :=
  (C12_mesh_partial ⟨3, 3, 3⟩ (by norm_num) (by norm_num) (by norm_num) _ _).1

/-! ## What `set_maxwell_dielectric` stores -/

theorem setDielectric_ok {md md' : MData} {a : DielArgs} (h : setDielectric md a = .ok md') :
    ∃ f : ℕ × ℕ × ℕ → HMat,
      (∀ i j k, i < md.nx → j < md.ny → k < md.nz →
        voxel a (if md.nz > 1 then 3 else if md.ny > 1 then 2 else 1) ⟨1 / md.nx, 1 / md.ny, 1 / md.nz⟩
          ⟨i * (1 / md.nx), j * (1 / md.ny), k * (1 / md.nz)⟩ = .ok (f (i, j, k)) ∧
        md'.heap md.epsInv ((i * md.ny + j) * md.nz + k) = f (i, j, k)) ∧
      md'.epsInvMean = ((loop3 md.nx md.ny md.nz).map fun t => (f t).m00 + (f t).m11 + (f t).m22).sum / (3 * (md.size : ℝ)) ∧
      (∀ n, md.size ≤ n → md'.heap md.epsInv n = md.heap md.epsInv n) ∧
      (∀ p, p ≠ md.epsInv → md'.heap p = md.heap p) ∧
      md'.nx = md.nx ∧ md'.ny = md.ny ∧ md'.nz = md.nz ∧ md'.epsInv = md.epsInv ∧ md'.muInv = md.muInv ∧
      md'.muInvMean = md.muInvMean ∧ md'.fresh = md.fresh := by
  unfold setDielectric at h
  dsimp only at h
  split at h
  · rename_i arr total hl
    have := Res.ok_inj h
    subst this
    obtain ⟨f, h1, h2, h3⟩ := dielLoop_spec _ _ _ _ _ _ hl
    simp only at h2 h3
    have hinj : ∀ t ∈ loop3 md.nx md.ny md.nz, ∀ t' ∈ loop3 md.nx md.ny md.nz,
        (t.1 * md.ny + t.2.1) * md.nz + t.2.2 = (t'.1 * md.ny + t'.2.1) * md.nz + t'.2.2 → t = t' := by
      intro t ht t' ht' he
      rw [mem_loop3] at ht ht'
      obtain ⟨e1, e2⟩ := rowMajor_inj ht.2.2 ht'.2.2 he
      obtain ⟨e3, e4⟩ := rowMajor_inj ht.2.1 ht'.2.1 e1
      exact Prod.ext e3 (Prod.ext e4 e2)
    refine ⟨f, ?_, ?_, ?_, ?_, rfl, rfl, rfl, rfl, rfl, rfl, rfl⟩
    · intro i j k hi hj hk
      have hm : (i, j, k) ∈ loop3 md.nx md.ny md.nz := mem_loop3.mpr ⟨hi, hj, hk⟩
      refine ⟨h1 _ hm, ?_⟩
      simp only [Function.update_self]
      rw [h2]
      exact writes_map_apply (addr := fun t : ℕ × ℕ × ℕ => (t.1 * md.ny + t.2.1) * md.nz + t.2.2) (val := f) hm
        (fun t ht he => by rw [hinj t ht _ hm he])
    · rw [h3, zero_add]
    · intro n hn
      simp only [Function.update_self]
      rw [h2]
      refine writes_map_other (addr := fun t : ℕ × ℕ × ℕ => (t.1 * md.ny + t.2.1) * md.nz + t.2.2) (val := f) ?_
      intro t ht
      rw [mem_loop3] at ht
      have : (t.1 * md.ny + t.2.1) * md.nz + t.2.2 < md.nx * md.ny * md.nz := rowMajor_lt (rowMajor_lt ht.1 ht.2.1) ht.2.2
      unfold MData.size at hn
      omega
    · intro p hp
      simp [Function.update_of_ne hp]
  · cases h
  · cases h

theorem setDielectric_total (md : MData) (a : DielArgs)
    (h : ∀ i j k, i < md.nx → j < md.ny → k < md.nz → ∃ m,
      voxel a (if md.nz > 1 then 3 else if md.ny > 1 then 2 else 1) ⟨1 / md.nx, 1 / md.ny, 1 / md.nz⟩
          ⟨i * (1 / md.nx), j * (1 / md.ny), k * (1 / md.nz)⟩ = .ok m) :
    ∃ md', setDielectric md a = .ok md' := by
  unfold setDielectric
  dsimp only
  obtain ⟨out, ho⟩ := dielLoop_total (fun i j k : ℕ => voxel a (if md.nz > 1 then 3 else if md.ny > 1 then 2 else 1)
    ⟨1 / md.nx, 1 / md.ny, 1 / md.nz⟩ ⟨i * (1 / md.nx), j * (1 / md.ny), k * (1 / md.nz)⟩) md.ny md.nz
    (loop3 md.nx md.ny md.nz) (md.heap md.epsInv, 0) (fun t ht => by
      rw [mem_loop3] at ht
      exact h _ _ _ ht.1 ht.2.1 ht.2.2)
  rw [ho]
  exact ⟨_, rfl⟩

/-! ## C13: `set_maxwell_mu` -/

/-- The pointers of the structure are sane: addresses come from `malloc` and the two arrays are different ones. -/
def Spec.WellFormed (md : MData) : Prop :=
  md.epsInv < md.fresh ∧ ∀ p, md.muInv = some p → p < md.fresh ∧ p ≠ md.epsInv

/-- C13: setting the permeability leaves the dielectric function (pointer, every tensor, mean) exactly as it was, and stores in
the permeability array exactly what `set_maxwell_dielectric` would have stored in the dielectric one for the same callbacks,
with its mean. -/
theorem C13_set_mu (md md' : MData) (a : DielArgs) (hw : Spec.WellFormed md) (h : setMu md a = .ok md') :
    md'.epsInv = md.epsInv ∧ md'.epsInvMean = md.epsInvMean ∧ md'.heap md'.epsInv = md.heap md.epsInv ∧
    Spec.WellFormed md' ∧
    ∃ p, md'.muInv = some p ∧ (md.muInv = some p ∨ md.muInv = none ∧ p = md.fresh) ∧
      (∀ q, q ≠ p → md'.heap q = md.heap q) ∧
      ∃ ref, setDielectric md a = .ok ref ∧ md'.muInvMean = ref.epsInvMean ∧
        ∀ i < md.size, md'.heap p i = ref.heap md.epsInv i := by
  unfold setMu at h
  dsimp only at h
  split at h
  swap
  · cases h
  swap
  · cases h
  rename_i md2 h2
  have := Res.ok_inj h
  subst this
  dsimp only
  obtain ⟨p, hp, hpm, hne, hlt, hheap, hnx, hny, hnz⟩ : ∃ p, (allocMu md).muInv = some p ∧
      (md.muInv = some p ∨ md.muInv = none ∧ p = md.fresh) ∧ p ≠ md.epsInv ∧
      (p < (allocMu md).fresh ∧ md.epsInv < (allocMu md).fresh) ∧
      (allocMu md).heap = md.heap ∧ (allocMu md).nx = md.nx ∧ (allocMu md).ny = md.ny ∧ (allocMu md).nz = md.nz := by
    unfold allocMu
    cases hm : md.muInv with
    | none =>
      exact ⟨md.fresh, rfl, Or.inr ⟨rfl, rfl⟩, (ne_of_lt hw.1).symm, ⟨Nat.lt_succ_self _, Nat.lt_succ_of_lt hw.1⟩,
        rfl, rfl, rfl, rfl⟩
    | some p => exact ⟨p, hm, Or.inl rfl, (hw.2 p hm).2, ⟨(hw.2 p hm).1, hw.1⟩, rfl, rfl, rfl, rfl⟩
  generalize allocMu md = m0 at *
  rw [hp] at h2
  obtain ⟨f, hf, hmean, hrest, hother, e1, e2, e3, e4, e5, e6, e7⟩ := setDielectric_ok h2
  simp only [Option.getD_some, hnx, hny, hnz, hheap, hp] at hf hmean hrest hother e1 e2 e3 e4 e5 e6 e7
  refine ⟨rfl, rfl, ?_, ?_, p, e5, hpm, hother, ?_⟩
  · exact hother md.epsInv hne.symm
  · refine ⟨?_, ?_⟩
    · dsimp only; rw [e7]; exact hlt.2
    · intro q hq
      dsimp only at hq ⊢
      rw [e5] at hq
      cases hq
      exact ⟨by rw [e7]; exact hlt.1, hne⟩
  · obtain ⟨ref, href⟩ := setDielectric_total md a (fun i j k hi hj hk => ⟨_, (hf i j k hi hj hk).1⟩)
    obtain ⟨g, hg, gmean, _⟩ := setDielectric_ok href
    have hfg : ∀ i j k, i < md.nx → j < md.ny → k < md.nz → f (i, j, k) = g (i, j, k) := by
      intro i j k hi hj hk
      have a1 := (hf i j k hi hj hk).1
      rw [(hg i j k hi hj hk).1] at a1
      exact (Res.ok_inj a1).symm
    refine ⟨ref, href, ?_, ?_⟩
    · simp only [MData.size, hnx, hny, hnz] at hmean
      rw [hmean, gmean]
      unfold MData.size
      congr 1
      congr 1
      apply List.map_congr_left
      intro t ht
      rw [mem_loop3] at ht
      rw [show f t = g t from hfg t.1 t.2.1 t.2.2 ht.1 ht.2.1 ht.2.2]
    · intro n hn
      unfold MData.size at hn
      have hz : 0 < md.nz := Nat.pos_of_ne_zero (by rintro h0; rw [h0] at hn; simp at hn)
      have hy : 0 < md.ny := Nat.pos_of_ne_zero (by rintro h0; rw [h0] at hn; simp at hn)
      have hk : n % md.nz < md.nz := Nat.mod_lt _ hz
      have hq : n / md.nz < md.nx * md.ny := Nat.div_lt_of_lt_mul (by rw [Nat.mul_comm]; exact hn)
      have hj : n / md.nz % md.ny < md.ny := Nat.mod_lt _ hy
      have hi : n / md.nz / md.ny < md.nx := Nat.div_lt_of_lt_mul (by rw [Nat.mul_comm]; exact hq)
      have hn' : n = (n / md.nz / md.ny * md.ny + n / md.nz % md.ny) * md.nz + n % md.nz := by
        rw [Nat.div_add_mod' (n / md.nz) md.ny, Nat.div_add_mod']
      have b1 := (hf _ _ _ hi hj hk).2
      have b2 := (hg _ _ _ hi hj hk).2
      rw [hfg _ _ _ hi hj hk, ← b2] at b1
      rw [← hn'] at b1
      exact b1

/-! ## C61, C62: positivity and homogeneous media -/

/-- The callbacks describe a physical medium: at every point the dielectric tensor is positive definite, the second tensor the
callback returns is its inverse, and the analytic average (when there is one) is positive definite. -/
def Spec.Physical (a : DielArgs) : Prop :=
  (∀ q, PosDef (a.epsilon q).1 ∧ toMatrix (a.epsilon q).1 * toMatrix (a.epsilon q).2 = 1) ∧
  ∀ f, a.mepsilon = some f → ∀ q m, f q = some m → PosDef m

theorem hInvert_posDef {V : HMat} (h : PosDef V) : ∃ W, hInvert V = .ok W ∧ PosDef W := by
  obtain ⟨W, hW⟩ := hInvert_of_det (posDef_det h)
  exact ⟨W, hW, posDef_inv h (hInvert_ok hW)⟩

theorem voxel_posDef (a : DielArgs) (ha : Spec.Physical a) (hx : 1 ≤ a.ms.x) (hy : 1 ≤ a.ms.y) (hz : 1 ≤ a.ms.z)
    (rank : ℕ) (s r : V3 ℝ) : ∃ m, voxel a rank s r = .ok m ∧ PosDef m := by
  classical
  have hinv : ∀ q, PosDef (a.epsilon q).2 := fun q => posDef_inv (ha.1 q).1 (ha.1 q).2
  unfold voxel
  dsimp only
  split
  · exact ⟨_, rfl, hinv r⟩
  · split
    · rename_i m hm
      cases he : a.mepsilon with
      | none => rw [he] at hm; cases hm
      | some f =>
        rw [he] at hm
        exact hInvert_posDef (ha.2 f he r m hm)
    · split
      · split
        · rename_i hlen
          have hne : Real.sqrt ((interfaceNormal a.epsilon a.moment a.Rl r).x * (interfaceNormal a.epsilon a.moment a.Rl r).x +
              (interfaceNormal a.epsilon a.moment a.Rl r).y * (interfaceNormal a.epsilon a.moment a.Rl r).y +
              (interfaceNormal a.epsilon a.moment a.Rl r).z * (interfaceNormal a.epsilon a.moment a.Rl r).z) ≠ 0 := by
            intro h0
            rw [h0] at hlen
            norm_num [small] at hlen
          have ho := rotation_orthonormal (unit_normalize hne)
          unfold kottkeMesh
          apply hInvert_posDef
          apply posDef_rotate _ (swap_orthonormal ho)
          apply posDef_untau
          apply tauPos_hScale _ (prodInv_pos hx hy hz)
          apply foldl_hAdd_mem TauPos (fun a b => tauPos_hAdd) _ _ (meshPoints_ne_nil hx hy hz s r)
          intro q _
          exact tauPos_tau (posDef_rotate (ha.1 q).1 ho)
        · refine ⟨_, rfl, ?_⟩
          rw [averageEpsInv_eq]
          apply posDef_hScale _ (prodInv_pos hx hy hz)
          apply foldl_hAdd_mem PosDef (fun a b => posDef_hAdd) (fun q => (a.epsilon q).2) _ (meshPoints_ne_nil hx hy hz s r)
          intro q _
          exact hinv q
      · exact ⟨_, rfl, hinv r⟩

/-- C61: for every medium with positive definite tensors, every grid, every mesh (sizes at least one), lattice and moment mesh,
`set_maxwell_dielectric` succeeds, stores only positive definite tensors, and the result passes the positivity part of
`check_maxwell_dielectric` (it never returns code 1). -/
theorem C61_positive (md : MData) (a : DielArgs) (ha : Spec.Physical a) (hx : 1 ≤ a.ms.x) (hy : 1 ≤ a.ms.y) (hz : 1 ≤ a.ms.z) :
    ∃ md', setDielectric md a = .ok md' ∧
      (∀ i j k, i < md.nx → j < md.ny → k < md.nz → PosDef (md'.heap md'.epsInv ((i * md.ny + j) * md.nz + k))) ∧
      ∀ parity negOk, checkDielectric md' parity negOk ≠ 1 := by
  obtain ⟨md', h⟩ := setDielectric_total md a (fun i j k _ _ _ => by
    obtain ⟨m, hm, _⟩ := voxel_posDef a ha hx hy hz (if md.nz > 1 then 3 else if md.ny > 1 then 2 else 1)
      ⟨1 / md.nx, 1 / md.ny, 1 / md.nz⟩ ⟨i * (1 / md.nx), j * (1 / md.ny), k * (1 / md.nz)⟩
    exact ⟨m, hm⟩)
  obtain ⟨f, hf, _, _, _, e1, e2, e3, e4, _⟩ := setDielectric_ok h
  have hp : ∀ i j k, i < md.nx → j < md.ny → k < md.nz → PosDef (md'.heap md'.epsInv ((i * md.ny + j) * md.nz + k)) := by
    intro i j k hi hj hk
    obtain ⟨h1, h2⟩ := hf i j k hi hj hk
    obtain ⟨m, hm, hpd⟩ := voxel_posDef a ha hx hy hz (if md.nz > 1 then 3 else if md.ny > 1 then 2 else 1)
      ⟨1 / md.nx, 1 / md.ny, 1 / md.nz⟩ ⟨i * (1 / md.nx), j * (1 / md.ny), k * (1 / md.nz)⟩
    rw [h1] at hm
    rw [e4, h2, Res.ok_inj hm]
    exact hpd
  refine ⟨md', h, hp, ?_⟩
  intro parity negOk hc
  obtain ⟨_, n, hn, hnp, _⟩ := (C09_check_codes md' parity negOk).1.mp hc
  apply hnp
  unfold MData.size at hn
  rw [e1, e2, e3] at hn
  have hz' : 0 < md.nz := Nat.pos_of_ne_zero (by rintro h0; rw [h0] at hn; simp at hn)
  have hy' : 0 < md.ny := Nat.pos_of_ne_zero (by rintro h0; rw [h0] at hn; simp at hn)
  have hk : n % md.nz < md.nz := Nat.mod_lt _ hz'
  have hq : n / md.nz < md.nx * md.ny := Nat.div_lt_of_lt_mul (by rw [Nat.mul_comm]; exact hn)
  have hj : n / md.nz % md.ny < md.ny := Nat.mod_lt _ hy'
  have hi : n / md.nz / md.ny < md.nx := Nat.div_lt_of_lt_mul (by rw [Nat.mul_comm]; exact hq)
  have := hp _ _ _ hi hj hk
  rwa [Nat.div_add_mod' (n / md.nz) md.ny, Nat.div_add_mod'] at this

/-- C61, link to mpb: an analytic average that is the Kottke mean of positive definite media (`mean_epsilon_func`) is an
admissible `mepsilon`. -/
theorem C61_kottke_admissible (epsilon : V3 ℝ → HMat × HMat) (ms : V3 ℤ) (Rl : M3 ℝ) (moment : List (V3 ℝ × ℝ))
    (h : ∀ q, PosDef (epsilon q).1 ∧ toMatrix (epsilon q).1 * toMatrix (epsilon q).2 = 1)
    (fill : V3 ℝ → ℝ) (normal : V3 ℝ → V3 ℝ) (e1 e2 : V3 ℝ → HMat)
    (hf : ∀ q, 0 ≤ fill q ∧ fill q ≤ 1) (h1 : ∀ q, PosDef (e1 q)) (h2 : ∀ q, PosDef (e2 q)) :
    Spec.Physical ⟨ms, Rl, moment, epsilon, some fun q => kottke (fill q) (normal q) (e1 q) (e2 q)⟩ := by
  classical
  refine ⟨h, ?_⟩
  intro f hfe q m hm
  cases hfe
  by_cases hn : Spec.NonZero (normal q)
  · obtain ⟨m', hk, hp⟩ := C11_posDef (fill q) (hf q).1 (hf q).2 (normal q) hn (e1 q) (e2 q) (h1 q) (h2 q)
    dsimp only at hm
    rw [hk] at hm
    cases hm
    exact hp
  · unfold Spec.NonZero at hn
    push Not at hn
    simp [kottke, hn.1, hn.2.1, hn.2.2] at hm

/-- C62: a homogeneous medium stays homogeneous and exact: if the callback returns the same positive definite tensor and its
inverse everywhere, every grid point gets that inverse, whatever the grid, mesh (any sizes), lattice and moment mesh, and the
stored mean is a third of its trace. -/
theorem C62_homogeneous (md : MData) (a : DielArgs) (e ei : HMat) (he : toMatrix e * toMatrix ei = 1)
    (ha : ∀ q, a.epsilon q = (e, ei)) (hm : a.mepsilon = none ∨ ∃ f, a.mepsilon = some f ∧ ∀ q, f q = none ∨ f q = some e)
    (hpos : 0 < md.size) :
    ∃ md', setDielectric md a = .ok md' ∧
      (∀ i j k, i < md.nx → j < md.ny → k < md.nz → md'.heap md'.epsInv ((i * md.ny + j) * md.nz + k) = ei) ∧
      md'.epsInvMean = (ei.m00 + ei.m11 + ei.m22) / 3 := by
  classical
  have hv : ∀ rank s r, voxel a rank s r = .ok ei := by
    intro rank s r
    unfold voxel
    dsimp only
    split
    · rw [ha]
    · split
      · rename_i m hm'
        have : m = e := by
          rcases hm with hm | ⟨f, hm, hf⟩
          · rw [hm] at hm'; cases hm'
          · rw [hm] at hm'
            simp only [Option.bind_some] at hm'
            rcases hf r with h | h
            · rw [h] at hm'; cases hm'
            · rw [h] at hm'; cases hm'; rfl
        subst this
        have hdet : (toMatrix m).det ≠ 0 := by
          intro h0
          have h1 := congrArg Matrix.det he
          rw [Matrix.det_mul, h0, zero_mul, Matrix.det_one] at h1
          exact zero_ne_one h1
        obtain ⟨W, hW⟩ := hInvert_of_det hdet
        rw [hW]
        refine congrArg Res.ok (toMatrix_inj ?_)
        have h1 : toMatrix W * toMatrix m = 1 := mul_eq_one_comm.mp (hInvert_ok hW)
        calc toMatrix W = toMatrix W * (toMatrix m * toMatrix ei) := by rw [he, Matrix.mul_one]
          _ = toMatrix ei := by rw [← Matrix.mul_assoc, h1, Matrix.one_mul]
      · have hnd : detectInterface a.epsilon rank s r = false := by
          unfold detectInterface
          rw [List.any_eq_false]
          intro c _
          simp [ha, differs, small]
        rw [hnd]
        simp [ha]
  obtain ⟨md', h⟩ := setDielectric_total md a (fun i j k _ _ _ => ⟨_, hv _ _ _⟩)
  obtain ⟨f, hf, hmean, _, _, e1, e2, e3, e4, _⟩ := setDielectric_ok h
  have hfe : ∀ i j k, i < md.nx → j < md.ny → k < md.nz → f (i, j, k) = ei := by
    intro i j k hi hj hk
    have := (hf i j k hi hj hk).1
    rw [hv] at this
    exact (Res.ok_inj this).symm
  refine ⟨md', h, ?_, ?_⟩
  · intro i j k hi hj hk
    rw [e4, (hf i j k hi hj hk).2, hfe i j k hi hj hk]
  · rw [hmean]
    have : (loop3 md.nx md.ny md.nz).map (fun t => (f t).m00 + (f t).m11 + (f t).m22) =
        (loop3 md.nx md.ny md.nz).map (fun _ => ei.m00 + ei.m11 + ei.m22) := by
      apply List.map_congr_left
      intro t ht
      rw [mem_loop3] at ht
      rw [show f t = ei from hfe t.1 t.2.1 t.2.2 ht.1 ht.2.1 ht.2.2]
    rw [this, List.map_const', List.sum_replicate, length_loop3]
    have hs : ((md.nx * md.ny * md.nz : ℕ) : ℝ) ≠ 0 := by
      unfold MData.size at hpos
      exact_mod_cast hpos.ne'
    unfold MData.size
    rw [nsmul_eq_mul]
    field_simp

/-- Non-vacuity of C61 and C62: vacuum/dielectric step media and constant media are physical. -/
example : Spec.Physical ⟨⟨3, 3, 3⟩, M3.one, [], fun q => open Classical in if q.x < 1 / 2 then (iso 2, iso (1 / 2)) else (iso 1, iso 1), none⟩ := by
  classical
  refine ⟨fun q => ?_, by simp⟩
  dsimp only
  split
  · refine ⟨by rw [← hPosDef_iff]; norm_num [hPosDef, iso, nsq], ?_⟩
    rw [toMatrix_iso, toMatrix_iso, Matrix.smul_mul, Matrix.one_mul, smul_smul]
    norm_num
  · refine ⟨by rw [← hPosDef_iff]; norm_num [hPosDef, iso, nsq], ?_⟩
    rw [toMatrix_iso, Matrix.smul_mul, Matrix.one_mul, smul_smul]
    norm_num

end Mpb.Tensor

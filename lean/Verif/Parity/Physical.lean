import Verif.Parity.Props
import Verif.Maxwell.Props

/-!
# Property C63: the parity projection is the physical mirror

`C14` shows that the parity constraint projects onto eigenvectors of an operation on stored amplitudes.  Here that operation is
identified with the mirror reflection of the magnetic (pseudo-vector) field: the Fourier coefficient of the reflected field at
the wavevector `(Kx, Ky, Kz)` is the reflected coefficient at `(Kx, Ky, -Kz)`.
-/

namespace Mpb.Parity
open Spec Maxwell Maxwell.Spec

namespace Spec

/-- The mirror `z → -z` acting on a pseudo-vector. -/
def axialZ (v : V3 ℂ) : V3 ℂ := ⟨-v.x, -v.y, v.z⟩

/-- The mirror `y → -y` acting on a pseudo-vector. -/
def axialY (v : V3 ℂ) : V3 ℂ := ⟨-v.x, v.y, -v.z⟩

end Spec

theorem kData_mirrorZ (K : V3 ℝ) : (kData ⟨K.x, K.y, -K.z⟩).n = (kData K).n ∧ (kData K).n.z = 0 ∧
    (kData ⟨K.x, K.y, -K.z⟩).m = ⟨-(kData K).m.x, -(kData K).m.y, (kData K).m.z⟩ := by
  unfold kData
  simp only [neg_mul_neg]
  split
  · simp
  · split
    · simp [V3.cross, Maxwell.normalize, div_eq_mul_inv]
    · simp only [V3.cross, Maxwell.normalize]
      refine ⟨by simp, by simp, ?_⟩
      ext <;> simp

theorem kData_mirrorY (K : V3 ℝ) :
    (kData ⟨K.x, -K.y, K.z⟩).n = ⟨-(kData K).n.x, (kData K).n.y, (kData K).n.z⟩ ∧ (kData K).n.z = 0 ∧
    (kData ⟨K.x, -K.y, K.z⟩).m = ⟨(kData K).m.x, -(kData K).m.y, (kData K).m.z⟩ := by
  unfold kData
  simp only [neg_mul_neg, neg_eq_zero]
  split
  · simp
  · split
    · simp [V3.cross, Maxwell.normalize]
    · simp only [V3.cross, Maxwell.normalize]
      refine ⟨by simp, by simp, ?_⟩
      ext <;> simp

theorem cart_mirrorZ (K : V3 ℝ) (v : ℂ × ℂ) :
    cart (kData K) (v.1, -v.2) = axialZ (cart (kData ⟨K.x, K.y, -K.z⟩) v) := by
  obtain ⟨h1, h2, h3⟩ := kData_mirrorZ K
  unfold cart axialZ toC
  rw [h1, h3]
  ext <;> simp [h2] <;> ring

theorem cart_mirrorY (K : V3 ℝ) (v : ℂ × ℂ) :
    cart (kData K) (-v.1, v.2) = axialY (cart (kData ⟨K.x, -K.y, K.z⟩) v) := by
  obtain ⟨h1, h2, h3⟩ := kData_mirrorY K
  unfold cart axialY toC
  rw [h1, h3]
  ext <;> simp [h2] <;> ring

/-- The harmonic of the mirrored index is the negative harmonic, away from the Nyquist index. -/
theorem harm_mirror {n j : ℕ} (hj : j < n) (he : n % 2 = 0) (hny : j ≠ n / 2) : harm n ((n - j) % n) = - harm n j := by
  rcases Nat.eq_zero_or_pos j with rfl | h0
  · simp only [Nat.sub_zero, Nat.mod_self]
    unfold harm; split_ifs <;> omega
  · rw [Nat.mod_eq_of_lt (by omega)]
    unfold harm; split_ifs <;> omega

theorem harm_one : harm 1 0 = 0 := by decide

theorem flipZ_index {ny nz x y z : ℕ} (hz : z < nz) : flipZ nz ((x * ny + y) * nz + z) = (x * ny + y) * nz + (nz - z) % nz := by
  unfold flipZ
  have h1 : ((x * ny + y) * nz + z) / nz = x * ny + y := by
    rw [Nat.add_comm, Nat.add_mul_div_right _ _ (by omega), Nat.div_eq_of_lt hz, Nat.zero_add]
  have h2 : ((x * ny + y) * nz + z) % nz = z := by
    rw [Nat.add_comm, Nat.add_mul_mod_self_right, Nat.mod_eq_of_lt hz]
  rw [h1, h2]

theorem flipY_index {ny nz x y z : ℕ} (hy : y < ny) (hz : z < nz) :
    flipY ny nz ((x * ny + y) * nz + z) = (x * ny + (ny - y) % ny) * nz + z := by
  unfold flipY
  have h1 : ((x * ny + y) * nz + z) / nz = x * ny + y := by
    rw [Nat.add_comm, Nat.add_mul_div_right _ _ (by omega), Nat.div_eq_of_lt hz, Nat.zero_add]
  have h2 : ((x * ny + y) * nz + z) % nz = z := by
    rw [Nat.add_comm, Nat.add_mul_mod_self_right, Nat.mod_eq_of_lt hz]
  rw [h1, h2]
  have h3 : (x * ny + y) / ny = x := by
    rw [Nat.add_comm, Nat.add_mul_div_right _ _ (by omega), Nat.div_eq_of_lt hy, Nat.zero_add]
  have h4 : (x * ny + y) % ny = y := by
    rw [Nat.add_comm, Nat.add_mul_mod_self_right, Nat.mod_eq_of_lt hy]
  rw [h3, h4]

/-- The stored basis data of planewave `(x, y, z)`. -/
theorem updateK_get {nx ny nz x y z : ℕ} (hx : x < nx) (hy : y < ny) (hz : z < nz) (G1 G2 G3 k : V3 ℝ) :
    (updateK nx ny nz G1 G2 G3 k)[(x * ny + y) * nz + z]? =
      some (kData (kplusG G1 G2 G3 k (harm nx x) (harm ny y) (harm nz z))) := by
  unfold updateK
  rw [List.getElem?_map, getElem?_loop3 hx hy hz]
  rfl

/-- C63 (z mirror; partial: even `nz` away from its Nyquist index `nz/2`, or `nz = 1`).  When the third reciprocal vector is
along z, the others in the xy plane, and `k` has no z component, the amplitudes after `mirrorZ` at every planewave are those of
the mirror reflection `z → -z` of the pseudo-vector field. -/
theorem C63_z_partial (nx ny nz : ℕ) (he : nz % 2 = 0 ∨ nz = 1) (G1 G2 G3 k : V3 ℝ) (h1 : G1.z = 0) (h2 : G2.z = 0)
    (h3 : G3.x = 0 ∧ G3.y = 0) (hk : k.z = 0) (kd : ℕ → KData)
    (hkd : ∀ G < nx * ny * nz, (updateK nx ny nz G1 G2 G3 k)[G]? = some (kd G)) (xs : ℕ → ℂ × ℂ)
    (x y z : ℕ) (hx : x < nx) (hy : y < ny) (hz : z < nz) (hny : nz = 1 ∨ z ≠ nz / 2) :
    ∃ K : V3 ℝ, kd ((x * ny + y) * nz + z) = kData K ∧
      kd (flipZ nz ((x * ny + y) * nz + z)) = kData ⟨K.x, K.y, -K.z⟩ ∧
      cart (kd ((x * ny + y) * nz + z)) (mirrorZ nz xs ((x * ny + y) * nz + z)) =
        axialZ (cart (kd (flipZ nz ((x * ny + y) * nz + z))) (xs (flipZ nz ((x * ny + y) * nz + z)))) := by
  have hlt : ∀ z' < nz, (x * ny + y) * nz + z' < nx * ny * nz := fun z' hz' => rowMajor_lt (rowMajor_lt hx hy) hz'
  have hz' : (nz - z) % nz < nz := Nat.mod_lt _ (by omega)
  have e1 := hkd _ (hlt z hz)
  have e2 := hkd _ (hlt _ hz')
  rw [updateK_get hx hy hz] at e1
  rw [updateK_get hx hy hz'] at e2
  have hh : harm nz ((nz - z) % nz) = - harm nz z := by
    rcases he with he | rfl
    · exact harm_mirror hz he (by rcases hny with h | h <;> omega)
    · have : z = 0 := by omega
      subst this; decide
  refine ⟨_, (Option.some.inj e1).symm, ?_, ?_⟩
  · rw [flipZ_index hz, ← Option.some.inj e2, hh]
    congr 1
    simp only [kplusG, cartK, h1, h2, h3.1, h3.2, hk]
    push_cast
    ext <;> simp
  · have hK : kd (flipZ nz ((x * ny + y) * nz + z)) =
        kData ⟨(kplusG G1 G2 G3 k (harm nx x) (harm ny y) (harm nz z)).x, (kplusG G1 G2 G3 k (harm nx x) (harm ny y) (harm nz z)).y,
          -(kplusG G1 G2 G3 k (harm nx x) (harm ny y) (harm nz z)).z⟩ := by
      rw [flipZ_index hz, ← Option.some.inj e2, hh]
      congr 1
      simp only [kplusG, cartK, h1, h2, h3.1, h3.2, hk]
      push_cast
      ext <;> simp
    rw [hK, ← Option.some.inj e1]
    exact cart_mirrorZ _ _

/-- C63 (y mirror; partial as for z).  When the second reciprocal vector is along y, the others in the xz plane, and `k` has no
y component, `mirrorY` is the mirror reflection `y → -y` of the pseudo-vector field. -/
theorem C63_y_partial (nx ny nz : ℕ) (he : ny % 2 = 0 ∨ ny = 1) (G1 G2 G3 k : V3 ℝ) (h1 : G1.y = 0) (h2 : G2.x = 0 ∧ G2.z = 0)
    (h3 : G3.y = 0) (hk : k.y = 0) (kd : ℕ → KData)
    (hkd : ∀ G < nx * ny * nz, (updateK nx ny nz G1 G2 G3 k)[G]? = some (kd G)) (xs : ℕ → ℂ × ℂ)
    (x y z : ℕ) (hx : x < nx) (hy : y < ny) (hz : z < nz) (hny : ny = 1 ∨ y ≠ ny / 2) :
    ∃ K : V3 ℝ, kd ((x * ny + y) * nz + z) = kData K ∧
      kd (flipY ny nz ((x * ny + y) * nz + z)) = kData ⟨K.x, -K.y, K.z⟩ ∧
      cart (kd ((x * ny + y) * nz + z)) (mirrorY ny nz xs ((x * ny + y) * nz + z)) =
        axialY (cart (kd (flipY ny nz ((x * ny + y) * nz + z))) (xs (flipY ny nz ((x * ny + y) * nz + z)))) := by
  have hlt : ∀ y' < ny, (x * ny + y') * nz + z < nx * ny * nz := fun y' hy' => rowMajor_lt (rowMajor_lt hx hy') hz
  have hy' : (ny - y) % ny < ny := Nat.mod_lt _ (by omega)
  have e1 := hkd _ (hlt y hy)
  have e2 := hkd _ (hlt _ hy')
  rw [updateK_get hx hy hz] at e1
  rw [updateK_get hx hy' hz] at e2
  have hh : harm ny ((ny - y) % ny) = - harm ny y := by
    rcases he with he | rfl
    · exact harm_mirror hy he (by rcases hny with h | h <;> omega)
    · have : y = 0 := by omega
      subst this; decide
  have hK : kd (flipY ny nz ((x * ny + y) * nz + z)) =
      kData ⟨(kplusG G1 G2 G3 k (harm nx x) (harm ny y) (harm nz z)).x, -(kplusG G1 G2 G3 k (harm nx x) (harm ny y) (harm nz z)).y,
        (kplusG G1 G2 G3 k (harm nx x) (harm ny y) (harm nz z)).z⟩ := by
    rw [flipY_index hy hz, ← Option.some.inj e2, hh]
    congr 1
    simp only [kplusG, cartK, h1, h2.1, h2.2, h3, hk]
    push_cast
    ext <;> simp
  refine ⟨_, (Option.some.inj e1).symm, hK, ?_⟩
  rw [hK, ← Option.some.inj e1]
  exact cart_mirrorY _ _

/-- Unit lattice and a wavevector along x, for the refutations. -/
theorem kplusG_unit (kx : ℝ) (a b c : ℤ) : kplusG ⟨1, 0, 0⟩ ⟨0, 1, 0⟩ ⟨0, 0, 1⟩ ⟨kx, 0, 0⟩ a b c = ⟨kx - a, -b, -c⟩ := by
  unfold kplusG cartK
  ext <;> simp

/-- C63 fails at the Nyquist index: with `nz = 2` the amplitudes of planewave `z = 1` are paired with themselves, although the
reflection of its wavevector is a different vector. -/
theorem C63_nyquist_refuted :
    ¬ ∀ (nx ny nz : ℕ) (G1 G2 G3 k : V3 ℝ), G1.z = 0 → G2.z = 0 → (G3.x = 0 ∧ G3.y = 0) → k.z = 0 → ∀ kd : ℕ → KData,
      (∀ G < nx * ny * nz, (updateK nx ny nz G1 G2 G3 k)[G]? = some (kd G)) → ∀ xs : ℕ → ℂ × ℂ, ∀ G < nx * ny * nz,
        cart (kd G) (mirrorZ nz xs G) = axialZ (cart (kd (flipZ nz G)) (xs (flipZ nz G))) := by
  intro h
  have := h 1 1 2 ⟨1, 0, 0⟩ ⟨0, 1, 0⟩ ⟨0, 0, 1⟩ ⟨1, 0, 0⟩ rfl rfl ⟨rfl, rfl⟩ rfl
    (fun G => kData ⟨1, 0, -(harm 2 G : ℝ)⟩) (fun G hG => by
      have hz : G < 2 := by omega
      have := updateK_get (nx := 1) (ny := 1) (nz := 2) (x := 0) (y := 0) (z := G) (by omega) (by omega) hz ⟨1, 0, 0⟩ ⟨0, 1, 0⟩ ⟨0, 0, 1⟩ ⟨1, 0, 0⟩
      rw [kplusG_unit] at this
      simp only [Nat.zero_mul, Nat.zero_add, harm_one] at this
      rw [this]; simp)
    (fun _ => (1, 0)) 1 (by omega)
  have hf : flipZ 2 1 = 1 := by decide
  have hh : harm 2 1 = -1 := by decide
  simp only [hf, hh, mirrorZ] at this
  have hx := congrArg V3.x this
  have hm : (kData ⟨1, 0, -((-1 : ℤ) : ℝ)⟩).m.x ≠ 0 := by
    unfold kData
    norm_num [Maxwell.normalize, V3.cross]
  simp [cart, axialZ, toC] at hx
  have : ((kData ⟨1, 0, 1⟩).m.x : ℂ) = 0 := by linear_combination hx / 2
  apply hm
  have := Complex.ofReal_eq_zero.1 this
  simpa using this

/-- C63 also fails for every odd `nz ≥ 3`, which has no Nyquist index: the planewave `(nz-1)/2`, of harmonic `-(nz+1)/2`, is
paired with a planewave of harmonic `-(nz-1)/2`, on the same side of the mirror. -/
theorem C63_odd_refuted (nz : ℕ) (h3 : 3 ≤ nz) (ho : nz % 2 = 1) :
    harm nz ((nz - 1) / 2) = -((nz + 1) / 2 : ℕ) ∧ harm nz (flipZ nz ((nz - 1) / 2)) = -((nz - 1) / 2 : ℕ) := by
  have h := flipZ_index (ny := 1) (nz := nz) (x := 0) (y := 0) (z := (nz - 1) / 2) (by omega)
  simp only [Nat.zero_mul, Nat.zero_add] at h
  rw [h, Nat.mod_eq_of_lt (by omega)]
  unfold harm
  constructor <;> split_ifs <;> omega

/-- Non-vacuity of `C63_z_partial`: a cubic lattice with `4` points along z, planewave `z = 1`, `k` along x. -/
example : ∃ K : V3 ℝ, kData ⟨1, 0, -1⟩ = kData K ∧ flipZ 4 1 = 3 ∧
    cart (kData ⟨1, 0, -1⟩) (1, 0) = axialZ (cart (kData ⟨1, 0, 1⟩) (1, 0)) := by
  refine ⟨_, rfl, by decide, ?_⟩
  have := cart_mirrorZ ⟨1, 0, -1⟩ (1, 0)
  simpa using this

end Mpb.Parity

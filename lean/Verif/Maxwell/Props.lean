import Verif.Maxwell.Lemmas

/-! # Properties C01, C02, C03, C05 -/

namespace Mpb.Maxwell
open Spec

/-! ### C01 -/

/-- C01.  For all grid sizes, all real `k` and all real reciprocal vectors, the entry stored for grid index `(x,y,z)` is a
right-handed orthonormal transverse pair with magnitude `|k+G|` for `k + G`, `G` the reciprocal vector with harmonics
`-harm nx x` etc. -/
theorem C01_basis (nx ny nz x y z : ℕ) (hx : x < nx) (hy : y < ny) (hz : z < nz) (G1 G2 G3 k : V3 ℝ) :
    ∃ kd, (updateK nx ny nz G1 G2 G3 k)[(x * ny + y) * nz + z]? = some kd ∧
      IsBasis (waveVec G1 G2 G3 k ⟨-harm nx x, -harm ny y, -harm nz z⟩) kd := by
  refine ⟨_, updateK_get hx hy hz G1 G2 G3 k, ?_⟩
  rw [kplusG_eq]
  exact kData_isBasis _

/-- C01 (array size).  Exactly `nx*ny*nz` entries are stored. -/
theorem C01_size (nx ny nz : ℕ) (G1 G2 G3 k : V3 ℝ) : (updateK nx ny nz G1 G2 G3 k).length = nx * ny * nz := by
  rw [updateK, List.length_map, length_loop3]

/-- C01 (consequence).  Every field expressed in the basis is divergence free: `(k+G) · (v0 m + v1 n) = 0` for all complex
amplitudes. -/
theorem C01_divergence_free (K : V3 ℝ) (v0 v1 : ℂ) : V3.dot (toC K) (t2c (kData K) v0 v1) = 0 := by
  obtain ⟨-, -, -, -, -, hm, hn, -⟩ := kData_isBasis K
  apply Complex.ext
  · simp only [V3.dot, toC, t2c, V3.map, Complex.add_re, Complex.mul_re, Complex.ofReal_re, Complex.ofReal_im, Complex.zero_re]
    linear_combination v0.re * hm + v1.re * hn
  · simp only [V3.dot, toC, t2c, V3.map, Complex.add_im, Complex.mul_im, Complex.ofReal_re, Complex.ofReal_im, Complex.zero_im]
    linear_combination v0.im * hm + v1.im * hn

/-- Non-vacuity: a non-degenerate wavevector, one along z and the zero one. -/
example : (kData ⟨3, 4, 0⟩).kmag = 5 ∧ (kData ⟨0, 0, 2⟩).n = ⟨0, 1, 0⟩ ∧ (kData ⟨0, 0, 0⟩).m = ⟨0, 0, 1⟩ := by
  refine ⟨?_, ?_, ?_⟩
  · have h := kData_isBasis ⟨3, 4, 0⟩
    have := h.kmag_sq; have := h.kmag_nonneg
    norm_num at *
    nlinarith
  · simp [kData]
  · simp [kData]

/-! ### C02 -/

/-- The Cartesian vector written by `assign_t2c` is `v0 m + v1 n`. -/
theorem C02_t2c (k : KData) (v0 v1 : ℂ) : t2c k v0 v1 = cart k (v0, v1) := by
  ext <;> apply Complex.ext <;> simp [t2c, cart, toC, V3.smul] <;> ring

/-- C02 (round trip).  Converting to Cartesian and back returns the amplitudes times the scale factor. -/
theorem C02_roundtrip (K : V3 ℝ) (k : KData) (h : IsBasis K k) (v0 v1 : ℂ) (s : ℝ) :
    c2t k (t2c k v0 v1) s = ((s : ℂ) * v0, (s : ℂ) * v1) := by
  obtain ⟨-, -, mm, nn, mn, -, -, -⟩ := h
  refine Prod.ext ?_ ?_ <;> apply Complex.ext <;>
    simp only [c2t, t2c, Complex.mul_re, Complex.mul_im, Complex.ofReal_re, Complex.ofReal_im]
  · linear_combination s * v0.re * mm + s * v1.re * mn
  · linear_combination s * v0.im * mm + s * v1.im * mn
  · linear_combination s * v0.re * mn + s * v1.re * nn
  · linear_combination s * v0.im * mn + s * v1.im * nn

/-- C02 (curl, transverse to Cartesian).  The combined step computes `(k+G) × (v0 m + v1 n)`. -/
theorem C02_curl_t2c (K : V3 ℝ) (k : KData) (h : IsBasis K k) (v0 v1 : ℂ) :
    crossT2c k v0 v1 = V3.cross (toC K) (cart k (v0, v1)) := by
  obtain ⟨-, -, mm, nn, mn, -, -, rh⟩ := h
  have ex : K.x = k.kmag * (k.m.y * k.n.z - k.m.z * k.n.y) := congrArg V3.x rh
  have ey : K.y = k.kmag * (k.m.z * k.n.x - k.m.x * k.n.z) := congrArg V3.y rh
  have ez : K.z = k.kmag * (k.m.x * k.n.y - k.m.y * k.n.x) := congrArg V3.z rh
  ext <;> apply Complex.ext <;>
    simp [crossT2c, cart, toC, V3.cross, V3.smul, ex, ey, ez, -mul_eq_mul_left_iff, -mul_eq_mul_right_iff]
  · linear_combination (-k.kmag * v0.re * k.n.x) * mm + (k.kmag * v1.re * k.m.x) * nn + (k.kmag * v0.re * k.m.x - k.kmag * v1.re * k.n.x) * mn
  · linear_combination (-k.kmag * v0.im * k.n.x) * mm + (k.kmag * v1.im * k.m.x) * nn + (k.kmag * v0.im * k.m.x - k.kmag * v1.im * k.n.x) * mn
  · linear_combination (-k.kmag * v0.re * k.n.y) * mm + (k.kmag * v1.re * k.m.y) * nn + (k.kmag * v0.re * k.m.y - k.kmag * v1.re * k.n.y) * mn
  · linear_combination (-k.kmag * v0.im * k.n.y) * mm + (k.kmag * v1.im * k.m.y) * nn + (k.kmag * v0.im * k.m.y - k.kmag * v1.im * k.n.y) * mn
  · linear_combination (-k.kmag * v0.re * k.n.z) * mm + (k.kmag * v1.re * k.m.z) * nn + (k.kmag * v0.re * k.m.z - k.kmag * v1.re * k.n.z) * mn
  · linear_combination (-k.kmag * v0.im * k.n.z) * mm + (k.kmag * v1.im * k.m.z) * nn + (k.kmag * v0.im * k.m.z - k.kmag * v1.im * k.n.z) * mn

/-- C02 (curl, Cartesian to transverse).  The transverse amplitudes stored by the combined step are those of
`scale * ((k+G) × a)`, for every Cartesian vector `a`, transverse or not. -/
theorem C02_curl_c2t (K : V3 ℝ) (k : KData) (h : IsBasis K k) (a : V3 ℂ) (s : ℝ) :
    cart k (crossC2t k a s) = V3.smul (s : ℂ) (V3.cross (toC K) a) := by
  obtain ⟨-, -, -, -, -, -, -, rh⟩ := h
  have ex : K.x = k.kmag * (k.m.y * k.n.z - k.m.z * k.n.y) := congrArg V3.x rh
  have ey : K.y = k.kmag * (k.m.z * k.n.x - k.m.x * k.n.z) := congrArg V3.y rh
  have ez : K.z = k.kmag * (k.m.x * k.n.y - k.m.y * k.n.x) := congrArg V3.z rh
  ext <;> apply Complex.ext <;>
    simp [crossC2t, cart, toC, V3.cross, V3.smul, ex, ey, ez] <;> ring

/-- C02 (derivative of the curl used for group velocities).  It is the cross product with `u`. -/
theorem C02_ucross (u : V3 ℝ) (k : KData) (v0 v1 : ℂ) : ucrossT2c u k v0 v1 = V3.cross (toC u) (cart k (v0, v1)) := by
  ext <;> apply Complex.ext <;> simp [ucrossT2c, cart, toC, V3.cross, V3.smul] <;> ring

/-- C02 (adjointness).  The two curl steps are adjoint up to the sign that the operator's scale factor compensates:
`⟨curl v, a⟩ = - ⟨v, curl a⟩`. -/
theorem C02_adjoint (k : KData) (v : ℂ × ℂ) (a : V3 ℂ) (s : ℝ) :
    (s : ℂ) * herm (crossT2c k v.1 v.2) a = - hermT v (crossC2t k a s) := by
  obtain ⟨v0, v1⟩ := v
  apply Complex.ext <;> simp [crossT2c, crossC2t, herm, hermT] <;> ring

/-- C02 (projection adjoint).  `project_c2t` is the adjoint of `assign_t2c`. -/
theorem C02_project_adjoint (k : KData) (v : ℂ × ℂ) (a : V3 ℂ) (s : ℝ) :
    (s : ℂ) * herm (t2c k v.1 v.2) a = hermT v (c2t k a s) := by
  obtain ⟨v0, v1⟩ := v
  apply Complex.ext <;> simp [t2c, c2t, herm, hermT] <;> ring

/-- Non-vacuity: the hypothesis `IsBasis` holds for every stored entry (C01), e.g. for `K = (1,2,3)`. -/
example : IsBasis ⟨1, 2, 3⟩ (kData ⟨1, 2, 3⟩) := kData_isBasis _

/-! ### C03 -/

/-- C03 (inverse curl, second step).  For `k+G ≠ 0` the inverse of the Cartesian-valued curl is exact: it recovers the
transverse amplitudes from `(k+G) × v`, times the scale factor. -/
theorem C03_inverse_curl (K : V3 ℝ) (k : KData) (h : IsBasis K k) (hK : K ≠ 0) (v0 v1 : ℂ) (s : ℝ) :
    crossinvC2t k (crossT2c k v0 v1) s = ((s : ℂ) * v0, (s : ℂ) * v1) := by
  obtain ⟨-, hk2, mm, nn, mn, -, -, rh⟩ := h
  have hk : k.kmag ≠ 0 := by
    intro h0
    apply hK
    rw [rh, h0]
    ext <;> simp
  refine Prod.ext ?_ ?_ <;> apply Complex.ext <;>
    simp only [crossinvC2t, crossT2c, fixDenom, if_neg hk, Complex.mul_re, Complex.mul_im, Complex.ofReal_re,
      Complex.ofReal_im] <;> field_simp
  · linear_combination s * v0.re * nn - s * v1.re * mn
  · linear_combination s * v0.im * nn - s * v1.im * mn
  · linear_combination -s * v0.re * mn + s * v1.re * mm
  · linear_combination -s * v0.im * mn + s * v1.im * mm

/-- C03 (inverse curl, first step).  For `k+G ≠ 0` it yields a Cartesian vector `a`, transverse to `k+G`, with
`(k+G) × a = v`; i.e. the curl of the result has exactly the given transverse amplitudes. -/
theorem C03_inverse_curl_first (K : V3 ℝ) (k : KData) (h : IsBasis K k) (hK : K ≠ 0) (v0 v1 : ℂ) :
    crossC2t k (crossinvT2c k v0 v1) 1 = (v0, v1) ∧ V3.dot (toC K) (crossinvT2c k v0 v1) = 0 := by
  obtain ⟨-, hk2, mm, nn, mn, mK, nK, rh⟩ := h
  have hk : k.kmag ≠ 0 := by
    intro h0
    apply hK
    rw [rh, h0]
    ext <;> simp
  constructor
  · refine Prod.ext ?_ ?_ <;> apply Complex.ext <;>
      simp only [crossC2t, crossinvT2c, fixDenom, if_neg hk] <;> field_simp
    · linear_combination v0.re * nn - v1.re * mn
    · linear_combination v0.im * nn - v1.im * mn
    · linear_combination -v0.re * mn + v1.re * mm
    · linear_combination -v0.im * mn + v1.im * mm
  · apply Complex.ext <;> simp [V3.dot, toC, crossinvT2c, fixDenom, if_neg hk]
    · linear_combination (v0.re * nK - v1.re * mK) * (-1 / k.kmag)
    · linear_combination (v0.im * nK - v1.im * mK) * (-1 / k.kmag)

/-- C03 (zero wavevector).  At `k+G = 0` no division by zero occurs: the denominators used are never zero. -/
theorem C03_denominator_nonzero (x : ℝ) : fixDenom x ≠ 0 := by
  unfold fixDenom; split_ifs with h
  · exact one_ne_zero
  · exact h

/-- C03 (diagonal preconditioner).  Every amplitude (component `c`, band `b` of planewave `i`) is multiplied exactly once,
by a strictly positive factor that is `1/(|k+G|² ε⁻¹)` for non-zero `k+G` and `1` for zero; nothing else is touched. -/
theorem C03_diagonal (nG nc p : ℕ) (kpGn2 : ℕ → ℝ) (hk : ∀ i, 0 ≤ kpGn2 i) (e : ℝ) (he : 0 < e) (X : ℕ → ℂ) :
    (∀ i < nG, ∀ c < nc, ∀ b < p, ∃ f : ℝ, 0 < f ∧ (kpGn2 i ≠ 0 → f * (kpGn2 i * e) = 1) ∧ (kpGn2 i = 0 → f = 1) ∧
      simplePrecondition nG nc p kpGn2 e X ((i * nc + c) * p + b) = (f : ℂ) * X ((i * nc + c) * p + b)) ∧
    (∀ a, nG * nc * p ≤ a → simplePrecondition nG nc p kpGn2 e X a = X a) := by
  obtain ⟨h1, h2⟩ := foldl_update_spec (fun t : ℕ × ℕ × ℕ => (t.1 * nc + t.2.1) * p + t.2.2)
    (fun t (v : ℂ) => (⟨1 / fixDenom (kpGn2 t.1 * e) * v.re, 1 / fixDenom (kpGn2 t.1 * e) * v.im⟩ : ℂ)) (loop3 nG nc p) X
    (by rw [loop3_map_addr]; exact List.nodup_range)
  refine ⟨fun i hi c hc b hb => ?_, fun a ha => ?_⟩
  · refine ⟨1 / fixDenom (kpGn2 i * e), ?_, ?_, ?_, (h1 (i, c, b) (mem_loop3.2 ⟨hi, hc, hb⟩)).trans ?_⟩
    · have : 0 ≤ kpGn2 i * e := mul_nonneg (hk i) he.le
      unfold fixDenom
      split_ifs with h0
      · norm_num
      · exact one_div_pos.2 (lt_of_le_of_ne this (Ne.symm h0))
    · intro hne
      have : kpGn2 i * e ≠ 0 := mul_ne_zero hne he.ne'
      unfold fixDenom
      rw [if_neg this, one_div_mul_cancel this]
    · intro h0
      unfold fixDenom
      rw [h0]; simp
    · apply Complex.ext <;> simp
  · apply h2
    rw [loop3_map_addr, List.mem_range]
    omega

/-- Non-vacuity: at `k+G = 0` the stored entry has `kmag = 0`, and the inverse curl is evaluated with denominator 1. -/
example : (kData ⟨0, 0, 0⟩).kmag = 0 ∧ fixDenom 0 = 1 := by
  constructor
  · simp [kData]
  · simp [fixDenom]

/-! ### C05 -/

/-- C05 (part that holds for every size).  In a direction of size `n` the harmonics assigned to the indices `0..n-1` are
congruent to the index modulo `n`, pairwise distinct, and form a window of `n` consecutive integers containing 0. -/
theorem C05_harmonics (n : ℕ) (hn : 1 ≤ n) :
    (∀ x < n, harm n x % n = (x : ℤ) % n) ∧
    (∀ x < n, ∀ y < n, harm n x = harm n y → x = y) ∧
    (∃ lo : ℤ, lo ≤ 0 ∧ 0 < lo + n ∧ ∀ j : ℤ, (∃ x < n, harm n x = j) ↔ lo ≤ j ∧ j < lo + n) := by
  refine ⟨fun x _ => ?_, fun x hx y hy h => ?_, ?_⟩
  · unfold harm; split_ifs
    · rw [Int.sub_emod_right]
    · rfl
  · unfold harm at h; split_ifs at h <;> omega
  · refine ⟨(max 1 (n / 2) : ℕ) - n, by omega, by omega, fun j => ⟨?_, ?_⟩⟩
    · rintro ⟨x, hx, rfl⟩
      unfold harm; split_ifs <;> omega
    · intro ⟨h1, h2⟩
      rcases lt_or_ge j 0 with hj | hj
      · refine ⟨(j + n).toNat, by omega, ?_⟩
        unfold harm; split_ifs <;> omega
      · refine ⟨j.toNat, by omega, ?_⟩
        unfold harm; split_ifs <;> omega

/-- C05 (partial: closure under negation holds for even sizes and for size 1; for odd sizes ≥ 3 it is refuted below).  The
negative of every harmonic except the Nyquist one is again a harmonic of the grid. -/
theorem C05_symmetric_partial (n : ℕ) (hn : 1 ≤ n) (he : n % 2 = 0 ∨ n = 1) (x : ℕ) (hx : x < n)
    (hny : 2 * (harm n x).natAbs ≠ n) : ∃ y < n, harm n y = - harm n x := by
  unfold harm at *
  rcases he with he | rfl
  · rcases Nat.eq_zero_or_pos x with rfl | h0
    · exact ⟨0, by omega, by split_ifs at * <;> omega⟩
    · refine ⟨n - x, by omega, ?_⟩
      split_ifs at * <;> omega
  · exact ⟨0, by omega, by split_ifs at * <;> omega⟩

/-- C05 (refutation of the full statement).  For **every** odd size `n ≥ 3` the set of harmonics is not closed under
negation: the index `(n-1)/2` carries the harmonic `-(n+1)/2`, whose negative is not in the basis although it is not the
Nyquist harmonic (there is none for odd `n`), while the harmonic `(n-1)/2` that should be there is missing. -/
theorem C05_odd_refuted (n : ℕ) (hn : 3 ≤ n) (ho : n % 2 = 1) :
    harm n ((n - 1) / 2) = -((n + 1) / 2 : ℕ) ∧ (¬ ∃ y < n, harm n y = ((n + 1) / 2 : ℕ)) ∧
    ¬ ∃ y < n, harm n y = ((n - 1) / 2 : ℕ) := by
  refine ⟨?_, ?_, ?_⟩
  · unfold harm; split_ifs <;> omega
  · rintro ⟨y, hy, h⟩; unfold harm at h; split_ifs at h <;> omega
  · rintro ⟨y, hy, h⟩; unfold harm at h; split_ifs at h <;> omega

/-- Non-vacuity: for `n = 4` the harmonics are `0, 1, -2, -1`; for `n = 3` they are `0, -2, -1`. -/
example : (List.range 4).map (harm 4) = [0, 1, -2, -1] ∧ (List.range 3).map (harm 3) = [0, -2, -1] := by decide

end Mpb.Maxwell

import Verif.Maxwell.Lemmas

/-! # Properties C06 (planewaves) and C07 (divergence) -/

namespace Mpb.Maxwell
open Spec

/-! ### Lemmas for C06 -/

theorem dominantLoop_single {amp : ℕ → ℝ} {i0 : ℕ} (h0 : 0 < amp i0) (hz : ∀ i, i ≠ i0 → amp i = 0) :
    ∀ n, dominantLoop amp n = if i0 < n then (amp i0, i0) else (0, 0) := by
  intro n
  induction n with
  | zero => simp [dominantLoop]
  | succ n ih =>
    rw [dominantLoop, ih]
    by_cases hn : i0 < n
    · have e : amp n = 0 := hz n (by omega)
      have h2 : i0 < n + 1 := by omega
      have h3 : ¬ (amp i0 < 0) := by linarith
      simp [hn, h2, e, h3]
    · rw [if_neg hn]
      by_cases he : i0 = n
      · subst he
        simp [h0]
      · have e : amp n = 0 := hz n (Ne.symm he)
        have h2 : ¬ i0 < n + 1 := by omega
        simp [h2, e]

theorem dominantLoop_lt {amp : ℕ → ℝ} : ∀ {n}, 0 < n → (dominantLoop amp n).2 < n := by
  intro n
  induction n with
  | zero => intro h; omega
  | succ n ih =>
    intro _
    rw [dominantLoop]
    split_ifs
    · simp
    · rcases Nat.eq_zero_or_pos n with rfl | h
      · simp [dominantLoop]
      · exact (ih h).trans (Nat.lt_succ_self n)

/-- The amplitudes written by `maxwell_set_planewave` have total norm `|s|² + |p|²`. -/
theorem planewave_norm {K : V3 ℝ} {k : KData} (hb : IsBasis K k) {axis : V3 ℝ} (s pa : ℂ) {len : ℝ} (hlen : 0 < len)
    (hl2 : len ^ 2 = (V3.cross (V3.cross k.m k.n) axis).x ^ 2 + (V3.cross (V3.cross k.m k.n) axis).y ^ 2 +
      (V3.cross (V3.cross k.m k.n) axis).z ^ 2) (pv sv : V3 ℝ)
    (hpx : pv.x = (V3.cross (V3.cross k.m k.n) axis).x / len) (hpy : pv.y = (V3.cross (V3.cross k.m k.n) axis).y / len)
    (hpz : pv.z = (V3.cross (V3.cross k.m k.n) axis).z / len) (hsv : sv = V3.cross (V3.cross k.m k.n) pv) (a b : ℝ) :
    ((a * sv.x + b * pv.x) * k.m.x + (a * sv.y + b * pv.y) * k.m.y + (a * sv.z + b * pv.z) * k.m.z) ^ 2 +
    ((a * sv.x + b * pv.x) * k.n.x + (a * sv.y + b * pv.y) * k.n.y + (a * sv.z + b * pv.z) * k.n.z) ^ 2 = a ^ 2 + b ^ 2 := by
  obtain ⟨-, -, mm, nn, mn, -, -, -⟩ := hb
  set kv := V3.cross k.m k.n with hkv
  -- pv is a unit vector orthogonal to kv
  have hpp : pv.x ^ 2 + pv.y ^ 2 + pv.z ^ 2 = 1 := by
    rw [hpx, hpy, hpz, div_pow, div_pow, div_pow, ← add_div, ← add_div, ← hl2, div_self (by positivity)]
  have hpk : pv.x * kv.x + pv.y * kv.y + pv.z * kv.z = 0 := by
    rw [hpx, hpy, hpz]
    field_simp
    simp only [V3.cross]; ring
  have hkx : kv.x = k.m.y * k.n.z - k.m.z * k.n.y := rfl
  have hky : kv.y = k.m.z * k.n.x - k.m.x * k.n.z := rfl
  have hkz : kv.z = k.m.x * k.n.y - k.m.y * k.n.x := rfl
  -- components of pv along m and n
  set c := pv.x * k.m.x + pv.y * k.m.y + pv.z * k.m.z with hc
  set d := pv.x * k.n.x + pv.y * k.n.y + pv.z * k.n.z with hd
  have hsx : sv.x = kv.y * pv.z - kv.z * pv.y := by rw [hsv]; rfl
  have hsy : sv.y = kv.z * pv.x - kv.x * pv.z := by rw [hsv]; rfl
  have hsz : sv.z = kv.x * pv.y - kv.y * pv.x := by rw [hsv]; rfl
  have hsm : sv.x * k.m.x + sv.y * k.m.y + sv.z * k.m.z = -d := by
    rw [hsx, hsy, hsz, hkx, hky, hkz, hd]
    linear_combination (-(pv.x * k.n.x + pv.y * k.n.y + pv.z * k.n.z)) * mm + (pv.x * k.m.x + pv.y * k.m.y + pv.z * k.m.z) * mn
  have hsn : sv.x * k.n.x + sv.y * k.n.y + sv.z * k.n.z = c := by
    rw [hsx, hsy, hsz, hkx, hky, hkz, hc]
    linear_combination (pv.x * k.m.x + pv.y * k.m.y + pv.z * k.m.z) * nn - (pv.x * k.n.x + pv.y * k.n.y + pv.z * k.n.z) * mn
  -- completeness: |pv|^2 = c^2 + d^2 + (pv.kv)^2
  have hgram : (pv.x * kv.x + pv.y * kv.y + pv.z * kv.z) ^ 2 =
      (pv.x ^ 2 + pv.y ^ 2 + pv.z ^ 2) * (k.m.x * k.m.x + k.m.y * k.m.y + k.m.z * k.m.z) * (k.n.x * k.n.x + k.n.y * k.n.y + k.n.z * k.n.z)
      + 2 * c * d * (k.m.x * k.n.x + k.m.y * k.n.y + k.m.z * k.n.z)
      - (pv.x ^ 2 + pv.y ^ 2 + pv.z ^ 2) * (k.m.x * k.n.x + k.m.y * k.n.y + k.m.z * k.n.z) ^ 2
      - (k.m.x * k.m.x + k.m.y * k.m.y + k.m.z * k.m.z) * d ^ 2 - (k.n.x * k.n.x + k.n.y * k.n.y + k.n.z * k.n.z) * c ^ 2 := by
    rw [hkx, hky, hkz, hc, hd]; ring
  rw [mm, nn, mn, hpp, hpk] at hgram
  have e1 : (a * sv.x + b * pv.x) * k.m.x + (a * sv.y + b * pv.y) * k.m.y + (a * sv.z + b * pv.z) * k.m.z = a * (-d) + b * c := by
    rw [← hsm, hc]; ring
  have e2 : (a * sv.x + b * pv.x) * k.n.x + (a * sv.y + b * pv.y) * k.n.y + (a * sv.z + b * pv.z) * k.n.z = a * c + b * d := by
    rw [← hsn, hd]; ring
  rw [e1, e2]
  linear_combination (a ^ 2 + b ^ 2) * hgram

theorem amp_pos {s pa : ℂ} (hsp : s ≠ 0 ∨ pa ≠ 0) : 0 < s.re ^ 2 + pa.re ^ 2 + (s.im ^ 2 + pa.im ^ 2) := by
  rcases hsp with hs | hs
  · have := Complex.normSq_pos.2 hs
    rw [Complex.normSq_apply] at this; nlinarith [sq_nonneg pa.re, sq_nonneg pa.im]
  · have := Complex.normSq_pos.2 hs
    rw [Complex.normSq_apply] at this; nlinarith [sq_nonneg s.re, sq_nonneg s.im]

/-- The array `k_plus_G` as a memory. -/
noncomputable def kpgArr (nx ny nz : ℕ) (G1 G2 G3 k : V3 ℝ) : ℕ → KData :=
  fun i => ((updateK nx ny nz G1 G2 G3 k)[i]?).getD ⟨0, 0, 0⟩

theorem kpgArr_apply {nx ny nz x y z : ℕ} (hx : x < nx) (hy : y < ny) (hz : z < nz) (G1 G2 G3 k : V3 ℝ) :
    kpgArr nx ny nz G1 G2 G3 k ((x * ny + y) * nz + z) = kData (waveVec G1 G2 G3 k ⟨-harm nx x, -harm ny y, -harm nz z⟩) := by
  rw [kpgArr, updateK_get hx hy hz, kplusG_eq]; rfl

theorem gIndex_harm {n : ℕ} {g : ℤ} (h0 : 0 ≤ gIndex n g) (h1 : gIndex n g < n) :
    ((-harm n (gIndex n g).toNat - g) % n = 0) ∧
    (-(max 1 (n / 2) : ℕ) < g ∧ g ≤ n - (max 1 (n / 2) : ℕ) → -harm n (gIndex n g).toNat = g) := by
  have hcx : 1 ≤ max 1 (n / 2) := le_max_left _ _
  have key : -harm n (gIndex n g).toNat = g ∨ -harm n (gIndex n g).toNat = g - n ∨ -harm n (gIndex n g).toNat = g + n := by
    unfold harm gIndex at *
    split_ifs at * <;> omega
  constructor
  · rcases key with h | h | h <;> rw [h]
    · simp
    · have : g - (n : ℤ) - g = -n := by ring
      rw [this]; simp
    · have : g + (n : ℤ) - g = n := by ring
      rw [this]; simp
  · rintro ⟨a, b⟩
    unfold harm gIndex at *
    split_ifs at * <;> omega

set_option maxHeartbeats 800000 in
/-- C06.  For all grid sizes, all `k`, all reciprocal vectors, all bands, all integer harmonics `g`, all amplitudes not
both zero and all axes: whenever `maxwell_set_planewave` succeeds, only the requested band is written, and
`maxwell_dominant_planewave` then returns exactly `k + g'·G` where `g'` is congruent to `g` modulo the grid size in each
direction, and `g' = g` for every harmonic representable on the grid. -/
theorem C06_roundtrip (nx ny nz : ℕ) (G1 G2 G3 k : V3 ℝ) (p : ℕ) (H H' : ℕ → ℂ) (band : ℕ) (hb1 : 1 ≤ band) (hbp : band ≤ p)
    (g : V3 ℤ) (s pa : ℂ) (hsp : s ≠ 0 ∨ pa ≠ 0) (axis : V3 ℝ)
    (h : setPlanewave nx ny nz (kpgArr nx ny nz G1 G2 G3 k) p H band g s pa axis = some H') :
    (∃ g' : V3 ℤ, dominantPlanewave (nx * ny * nz) (kpgArr nx ny nz G1 G2 G3 k) p H' band = some (waveVec G1 G2 G3 k g') ∧
      (g'.x - g.x) % nx = 0 ∧ (g'.y - g.y) % ny = 0 ∧ (g'.z - g.z) % nz = 0 ∧
      (-(max 1 (nx / 2) : ℕ) < g.x ∧ g.x ≤ nx - (max 1 (nx / 2) : ℕ) → g'.x = g.x) ∧
      (-(max 1 (ny / 2) : ℕ) < g.y ∧ g.y ≤ ny - (max 1 (ny / 2) : ℕ) → g'.y = g.y) ∧
      (-(max 1 (nz / 2) : ℕ) < g.z ∧ g.z ≤ nz - (max 1 (nz / 2) : ℕ) → g'.z = g.z)) ∧
    (∀ i < nx * ny * nz, ∀ c < 2, ∀ b < p, b ≠ band - 1 → H' ((i * 2 + c) * p + b) = H ((i * 2 + c) * p + b)) ∧
    (∀ a, nx * ny * nz * 2 * p ≤ a → H' a = H a) := by
  unfold setPlanewave at h
  dsimp only at h
  split_ifs at h with hr hlen
  simp only [Option.some.injEq] at h
  obtain ⟨x0, y0, z0, x1, y1, z1⟩ := hr
  set x := gIndex nx g.x with hx
  set y := gIndex ny g.y with hy
  set z := gIndex nz g.z with hz
  have xl : x.toNat < nx := by omega
  have yl : y.toNat < ny := by omega
  have zl : z.toNat < nz := by omega
  set i0 := (x.toNat * ny + y.toNat) * nz + z.toNat with hi0
  have hi0l : i0 < nx * ny * nz := rowMajor_lt (rowMajor_lt xl yl) zl
  set g' : V3 ℤ := ⟨-harm nx x.toNat, -harm ny y.toNat, -harm nz z.toNat⟩ with hg'
  have hk : kpgArr nx ny nz G1 G2 G3 k i0 = kData (waveVec G1 G2 G3 k g') := kpgArr_apply xl yl zl G1 G2 G3 k
  rw [hk] at h hlen
  set kd := kData (waveVec G1 G2 G3 k g') with hkd
  have hB : IsBasis (waveVec G1 G2 G3 k g') kd := kData_isBasis _
  set W0 := writes (List.map (fun t : ℕ × ℕ => ((t.1 * 2 + t.2) * p + (band - 1), (0 : ℂ))) (loop2 (nx * ny * nz) 2)) H with hW0
  have hW0z : ∀ i < nx * ny * nz, ∀ c < 2, W0 ((i * 2 + c) * p + (band - 1)) = 0 := by
    intro i hi c hc
    exact writes_map_apply (addr := fun t : ℕ × ℕ => (t.1 * 2 + t.2) * p + (band - 1)) (val := fun _ => (0 : ℂ))
      (i := (i, c)) (mem_loop2.2 ⟨hi, hc⟩) (fun _ _ _ => rfl)
  have hW0o : ∀ a, (∀ i < nx * ny * nz, ∀ c < 2, (i * 2 + c) * p + (band - 1) ≠ a) → W0 a = H a := by
    intro a ha
    exact writes_map_other (addr := fun t : ℕ × ℕ => (t.1 * 2 + t.2) * p + (band - 1)) (val := fun _ => (0 : ℂ))
      (fun t ht => ha t.1 (mem_loop2.1 ht).1 t.2 (mem_loop2.1 ht).2)
  set pv : V3 ℝ := ⟨(V3.cross (V3.cross kd.m kd.n) axis).x /
      Real.sqrt ((V3.cross (V3.cross kd.m kd.n) axis).x * (V3.cross (V3.cross kd.m kd.n) axis).x +
        (V3.cross (V3.cross kd.m kd.n) axis).y * (V3.cross (V3.cross kd.m kd.n) axis).y +
        (V3.cross (V3.cross kd.m kd.n) axis).z * (V3.cross (V3.cross kd.m kd.n) axis).z),
      (V3.cross (V3.cross kd.m kd.n) axis).y /
      Real.sqrt ((V3.cross (V3.cross kd.m kd.n) axis).x * (V3.cross (V3.cross kd.m kd.n) axis).x +
        (V3.cross (V3.cross kd.m kd.n) axis).y * (V3.cross (V3.cross kd.m kd.n) axis).y +
        (V3.cross (V3.cross kd.m kd.n) axis).z * (V3.cross (V3.cross kd.m kd.n) axis).z),
      (V3.cross (V3.cross kd.m kd.n) axis).z /
      Real.sqrt ((V3.cross (V3.cross kd.m kd.n) axis).x * (V3.cross (V3.cross kd.m kd.n) axis).x +
        (V3.cross (V3.cross kd.m kd.n) axis).y * (V3.cross (V3.cross kd.m kd.n) axis).y +
        (V3.cross (V3.cross kd.m kd.n) axis).z * (V3.cross (V3.cross kd.m kd.n) axis).z)⟩ with hpv
  set sv := V3.cross (V3.cross kd.m kd.n) pv with hsv
  obtain ⟨v0, hv0⟩ : ∃ v0 : ℂ, v0 = ⟨(s.re * sv.x + pa.re * pv.x) * kd.m.x + (s.re * sv.y + pa.re * pv.y) * kd.m.y + (s.re * sv.z + pa.re * pv.z) * kd.m.z,
      (s.im * sv.x + pa.im * pv.x) * kd.m.x + (s.im * sv.y + pa.im * pv.y) * kd.m.y + (s.im * sv.z + pa.im * pv.z) * kd.m.z⟩ := ⟨_, rfl⟩
  obtain ⟨v1, hv1⟩ : ∃ v1 : ℂ, v1 = ⟨(s.re * sv.x + pa.re * pv.x) * kd.n.x + (s.re * sv.y + pa.re * pv.y) * kd.n.y + (s.re * sv.z + pa.re * pv.z) * kd.n.z,
      (s.im * sv.x + pa.im * pv.x) * kd.n.x + (s.im * sv.y + pa.im * pv.y) * kd.n.y + (s.im * sv.z + pa.im * pv.z) * kd.n.z⟩ := ⟨_, rfl⟩
  rw [← hv0, ← hv1] at h
  have hp0 : 0 < p := by omega
  have hbl : band - 1 < p := by omega
  have hne01 : (i0 * 2 + 0) * p + (band - 1) ≠ (i0 * 2 + 1) * p + (band - 1) := by
    intro e
    have := (rowMajor_inj hbl hbl e).1
    omega
  have hH'0 : H' ((i0 * 2 + 0) * p + (band - 1)) = v0 := by
    rw [← h, writes_cons, writes_cons, writes_nil, Function.update_of_ne hne01, Function.update_self]
  have hH'1 : H' ((i0 * 2 + 1) * p + (band - 1)) = v1 := by
    rw [← h, writes_cons, writes_cons, writes_nil, Function.update_self]
  have hH'o : ∀ a, a ≠ (i0 * 2 + 0) * p + (band - 1) → a ≠ (i0 * 2 + 1) * p + (band - 1) → H' a = W0 a := by
    intro a h1 h2
    rw [← h, writes_cons, writes_cons, writes_nil, Function.update_of_ne h2, Function.update_of_ne h1]
  have hH'z : ∀ i < nx * ny * nz, i ≠ i0 → ∀ c < 2, H' ((i * 2 + c) * p + (band - 1)) = 0 := by
    intro i hi hne c hc
    rw [hH'o, hW0z i hi c hc]
    · intro e; have := (rowMajor_inj hbl hbl e).1; omega
    · intro e; have := (rowMajor_inj hbl hbl e).1; omega
  refine ⟨⟨g', ?_, (gIndex_harm x0 x1).1, (gIndex_harm y0 y1).1, (gIndex_harm z0 z1).1, (gIndex_harm x0 x1).2,
    (gIndex_harm y0 y1).2, (gIndex_harm z0 z1).2⟩, ?_, ?_⟩
  · -- the dominant planewave
    have hamp0 : 0 < normSqr v0 + normSqr v1 := by
      set L := Real.sqrt ((V3.cross (V3.cross kd.m kd.n) axis).x * (V3.cross (V3.cross kd.m kd.n) axis).x +
        (V3.cross (V3.cross kd.m kd.n) axis).y * (V3.cross (V3.cross kd.m kd.n) axis).y +
        (V3.cross (V3.cross kd.m kd.n) axis).z * (V3.cross (V3.cross kd.m kd.n) axis).z) with hL
      have hL2 : L ^ 2 = (V3.cross (V3.cross kd.m kd.n) axis).x ^ 2 + (V3.cross (V3.cross kd.m kd.n) axis).y ^ 2 +
          (V3.cross (V3.cross kd.m kd.n) axis).z ^ 2 := by
        rw [hL, Real.sq_sqrt (add_nonneg (add_nonneg (mul_self_nonneg _) (mul_self_nonneg _)) (mul_self_nonneg _))]
        ring
      have n1 := planewave_norm hB s pa hlen hL2 pv sv rfl rfl rfl rfl s.re pa.re
      have n2 := planewave_norm hB s pa hlen hL2 pv sv rfl rfl rfl rfl s.im pa.im
      have tot : normSqr v0 + normSqr v1 = s.re ^ 2 + pa.re ^ 2 + (s.im ^ 2 + pa.im ^ 2) := by
        rw [← n1, ← n2, hv0, hv1]
        simp only [normSqr]; ring
      rw [tot]
      exact amp_pos hsp
    have hloop : ∀ n ≤ nx * ny * nz, dominantLoop (fun i => normSqr (H' ((i * 2 + 0) * p + (band - 1))) +
        normSqr (H' ((i * 2 + 1) * p + (band - 1)))) n = if i0 < n then (normSqr v0 + normSqr v1, i0) else (0, 0) := by
      have hext : ∀ (f f' : ℕ → ℝ) (n : ℕ), (∀ i < n, f i = f' i) → dominantLoop f n = dominantLoop f' n := by
        intro f f' n
        induction n with
        | zero => intro _; rfl
        | succ n ih =>
          intro hff
          rw [dominantLoop, dominantLoop, ih (fun i hi => hff i (by omega)), hff n (by omega)]
      intro n hn
      rw [hext _ (fun i => if i = i0 then normSqr v0 + normSqr v1 else 0) n (fun i hi => ?_)]
      · rw [dominantLoop_single (i0 := i0) (by simpa using hamp0) (fun i hi => if_neg hi)]
        simp
      · by_cases e : i = i0
        · subst e; simp only [if_true]; rw [hH'0, hH'1]
        · simp only [if_neg e]
          rw [hH'z i (by omega) e 0 (by omega), hH'z i (by omega) e 1 (by omega)]
          simp [normSqr]
    have hband : (1 : ℤ) ≤ (band : ℤ) ∧ (band : ℤ) ≤ p := by omega
    unfold dominantPlanewave
    rw [if_pos hband]
    simp only [Int.toNat_natCast, hloop _ le_rfl, if_pos hi0l, hk]
    congr 1
    have rh := hB.rh
    conv_rhs => rw [rh]
    ext <;> simp [V3.smul] <;> ring
  · intro i hi c hc b hb hne
    have hd : ∀ i' c', (i * 2 + c) * p + b ≠ (i' * 2 + c') * p + (band - 1) := by
      intro i' c' e
      exact hne (rowMajor_inj hb hbl e).2
    rw [hH'o _ (hd _ _) (hd _ _), hW0o _ (fun i' _ c' _ e => hd i' c' e.symm)]
  · intro a ha
    have hd : ∀ i' < nx * ny * nz, ∀ c' < 2, (i' * 2 + c') * p + (band - 1) ≠ a := by
      intro i' hi' c' hc' e
      have := rowMajor_lt (rowMajor_lt hi' hc') hbl
      omega
    rw [hH'o _ (hd _ hi0l 0 (by omega)).symm (hd _ hi0l 1 (by omega)).symm, hW0o _ hd]

/-- C06 (acceptance).  The call is rejected exactly when some harmonic is outside `(-n, n]` in its direction, or the axis is
parallel to `k+G`; so no accepted harmonic is ever written out of bounds. -/
theorem C06_accepts_iff (nx ny nz : ℕ) (kpg : ℕ → KData) (p : ℕ) (H : ℕ → ℂ) (band : ℕ) (g : V3 ℤ) (s pa : ℂ) (axis : V3 ℝ) :
    (setPlanewave nx ny nz kpg p H band g s pa axis).isSome ↔
      ((-(nx : ℤ) < g.x ∧ g.x ≤ nx ∧ 0 < nx) ∧ (-(ny : ℤ) < g.y ∧ g.y ≤ ny ∧ 0 < ny) ∧ (-(nz : ℤ) < g.z ∧ g.z ≤ nz ∧ 0 < nz)) ∧
      V3.cross (V3.cross (kpg (((gIndex nx g.x).toNat * ny + (gIndex ny g.y).toNat) * nz + (gIndex nz g.z).toNat)).m
        (kpg (((gIndex nx g.x).toNat * ny + (gIndex ny g.y).toNat) * nz + (gIndex nz g.z).toNat)).n) axis ≠ 0 := by
  have hg : ∀ (n : ℕ) (g : ℤ), (0 ≤ gIndex n g ∧ gIndex n g < n) ↔ (-(n : ℤ) < g ∧ g ≤ n ∧ 0 < n) := by
    intro n g; unfold gIndex; split_ifs <;> omega
  have hrange : (0 ≤ gIndex nx g.x ∧ 0 ≤ gIndex ny g.y ∧ 0 ≤ gIndex nz g.z ∧ gIndex nx g.x < nx ∧ gIndex ny g.y < ny ∧ gIndex nz g.z < nz) ↔
      ((-(nx : ℤ) < g.x ∧ g.x ≤ nx ∧ 0 < nx) ∧ (-(ny : ℤ) < g.y ∧ g.y ≤ ny ∧ 0 < ny) ∧ (-(nz : ℤ) < g.z ∧ g.z ≤ nz ∧ 0 < nz)) := by
    rw [← hg, ← hg, ← hg]; tauto
  have hv : ∀ v : V3 ℝ, Real.sqrt (v.x * v.x + v.y * v.y + v.z * v.z) > 0 ↔ v ≠ 0 := by
    intro v
    rw [gt_iff_lt, Real.sqrt_pos]
    constructor
    · rintro h rfl; simp at h
    · intro h
      by_contra hn
      apply h
      ext
      · simp only [V3.zero_x]; nlinarith [mul_self_nonneg v.x, mul_self_nonneg v.y, mul_self_nonneg v.z]
      · simp only [V3.zero_y]; nlinarith [mul_self_nonneg v.x, mul_self_nonneg v.y, mul_self_nonneg v.z]
      · simp only [V3.zero_z]; nlinarith [mul_self_nonneg v.x, mul_self_nonneg v.y, mul_self_nonneg v.z]
  unfold setPlanewave
  dsimp only
  rw [← hrange]
  split_ifs with h1 h2
  · simp only [Option.isSome_some, true_iff]
    exact ⟨h1, (hv _).1 h2⟩
  · simp only [Option.isSome_none, Bool.false_eq_true, false_iff, not_and]
    intro _ h3
    exact h2 ((hv _).2 h3)
  · simp only [Option.isSome_none, Bool.false_eq_true, false_iff, not_and]
    intro h3; exact absurd h3 h1

/-- Non-vacuity: on a `4×4×1` grid the harmonic `(2,-1,0)` is representable and the call succeeds with axis z for
`k = (1/2,0,0)` in the unit reciprocal basis. -/
example : (setPlanewave 4 4 1 (kpgArr 4 4 1 ⟨1, 0, 0⟩ ⟨0, 1, 0⟩ ⟨0, 0, 1⟩ ⟨1/2, 0, 0⟩) 3 (fun _ => 7) 2 ⟨2, -1, 0⟩ 1 0 ⟨0, 0, 1⟩).isSome := by
  rw [C06_accepts_iff]
  refine ⟨by norm_num, ?_⟩
  have hi : ((gIndex 4 2).toNat * 4 + (gIndex 4 (-1)).toNat) * 1 + (gIndex 1 0).toNat = (2 * 4 + 1) * 1 + 0 := by decide
  simp only [hi]
  rw [kpgArr_apply (by norm_num : 2 < 4) (by norm_num : 1 < 4) (by norm_num : 0 < 1)]
  have hb := kData_isBasis (waveVec ⟨1, 0, 0⟩ ⟨0, 1, 0⟩ ⟨0, 0, 1⟩ ⟨1/2, 0, 0⟩ ⟨-harm 4 2, -harm 4 1, -harm 1 0⟩)
  have hKx : (waveVec ⟨1, 0, 0⟩ ⟨0, 1, 0⟩ ⟨0, 0, 1⟩ ⟨1/2, 0, 0⟩ ⟨-harm 4 2, -harm 4 1, -harm 1 0⟩).x = 5 / 2 := by
    have e1 : harm 4 2 = -2 := by decide
    simp only [waveVec, V3.smul, V3.add_x, e1]
    norm_num
  generalize waveVec ⟨1, 0, 0⟩ ⟨0, 1, 0⟩ ⟨0, 0, 1⟩ ⟨1/2, 0, 0⟩ ⟨-harm 4 2, -harm 4 1, -harm 1 0⟩ = K at hb hKx
  intro h
  have hx := congrArg V3.y h
  have rh := congrArg V3.x hb.rh
  rw [hKx] at rh
  simp only [V3.cross, V3.zero_y, V3.smul] at hx rh
  simp only [mul_one, mul_zero, zero_sub, neg_eq_zero] at hx
  rw [hx] at rh
  norm_num at rh

/-! ### C07 -/

/-- C07 (when the wavevector used is right).  The vector by which `compute-field-divergence` multiplies a Fourier component
has the right x and y components always, and the right z component **iff** `Ky = 0` or `Kz = 0` (`K = k+G`); in general the
z component used is `Kx² Kz / (Kx² + Ky²)`. -/
theorem C07_wavevector_iff (K : V3 ℝ) : (divK (kData K)).x = K.x ∧ (divK (kData K)).y = K.y ∧
    ((divK (kData K)).z = K.z ↔ K.y = 0 ∨ K.z = 0) ∧
    (¬ (K.x = 0 ∧ K.y = 0) → (divK (kData K)).z * (K.x ^ 2 + K.y ^ 2) = K.x ^ 2 * K.z) := by
  have hB := kData_isBasis K
  have ex : K.x = (kData K).kmag * ((kData K).m.y * (kData K).n.z - (kData K).m.z * (kData K).n.y) := congrArg V3.x hB.rh
  have ey : K.y = (kData K).kmag * ((kData K).m.z * (kData K).n.x - (kData K).m.x * (kData K).n.z) := congrArg V3.y hB.rh
  have ez : K.z = (kData K).kmag * ((kData K).m.x * (kData K).n.y - (kData K).m.y * (kData K).n.x) := congrArg V3.z hB.rh
  -- the n vector never has a z component
  have hnz : (kData K).n.z = 0 := by
    simp only [kData]
    split_ifs <;> simp [normalize, V3.cross]
  have hdz : (divK (kData K)).z = K.z + (kData K).kmag * (kData K).m.y * (kData K).n.x := by
    rw [ez]; simp only [divK, hnz]; ring
  refine ⟨ex.symm, ey.symm, ?_⟩
  by_cases hxy : K.x = 0 ∧ K.y = 0
  · have hnx : (kData K).n.x = 0 := by
      simp only [kData]
      split_ifs <;> simp
    rw [hdz, hnx]
    exact ⟨by simp [hxy.2], fun h => absurd hxy h⟩
  · -- n = (-Ky, Kx, 0)/ρ : orthogonality of n to K and normalisation
    have hnn := hB.nn
    have hnK := hB.nK
    have hmn := hB.mn
    have hmK := hB.mK
    rw [hnz] at hnn hnK hmn ex ey
    have hρ : 0 < K.x ^ 2 + K.y ^ 2 := by
      by_contra hn
      apply hxy
      constructor <;> nlinarith [sq_nonneg K.x, sq_nonneg K.y]
    -- kmag * m.y * n.x * ρ² = - Ky² Kz
    have key : (kData K).kmag * (kData K).m.y * (kData K).n.x * (K.x ^ 2 + K.y ^ 2) = -(K.y ^ 2 * K.z) := by
      set m := (kData K).m
      set n := (kData K).n
      set q := (kData K).kmag
      rw [ez, ex, ey]
      have h2 : m.x * n.x + m.y * n.y = 0 := by linarith
      linear_combination (q ^ 3 * m.z ^ 2 * n.x * n.y) * h2
    have hz : (divK (kData K)).z * (K.x ^ 2 + K.y ^ 2) = K.x ^ 2 * K.z := by
      rw [hdz]; linear_combination key
    refine ⟨⟨fun h => ?_, fun h => ?_⟩, fun _ => hz⟩
    · rw [h] at hz
      have : K.y ^ 2 * K.z = 0 := by linarith
      rcases mul_eq_zero.1 this with h | h
      · left; exact pow_eq_zero_iff (two_ne_zero) |>.1 h
      · right; exact h
    · have : ((divK (kData K)).z - K.z) * (K.x ^ 2 + K.y ^ 2) = 0 := by
        rcases h with h | h <;> rw [h] at hz ⊢ <;> linear_combination hz
      have := (mul_eq_zero.1 this).resolve_right hρ.ne'
      linarith

/-- The in-place loop reads only original values. -/
theorem divLoop_apply (kpg : ℕ → KData) (f : ℕ → ℂ) : ∀ n a, divLoop kpg n f a =
    if a < n then (⟨(f (3 * a + 0)).re * (divK (kpg a)).x + (f (3 * a + 1)).re * (divK (kpg a)).y + (f (3 * a + 2)).re * (divK (kpg a)).z,
      (f (3 * a + 0)).im * (divK (kpg a)).x + (f (3 * a + 1)).im * (divK (kpg a)).y + (f (3 * a + 2)).im * (divK (kpg a)).z⟩ : ℂ)
    else f a := by
  intro n
  induction n with
  | zero => intro a; simp [divLoop]
  | succ n ih =>
    intro a
    rw [divLoop]
    by_cases ha : a = n
    · subst ha
      rw [Function.update_self, if_pos (by omega)]
      rw [ih (3 * a + 0), ih (3 * a + 1), ih (3 * a + 2), if_neg (by omega), if_neg (by omega), if_neg (by omega)]
    · rw [Function.update_of_ne ha, ih]
      by_cases h : a < n
      · rw [if_pos h, if_pos (by omega)]
      · rw [if_neg h, if_neg (by omega)]

/-- Specification: the spectral divergence of the 3-component field at grid point `i`: the inverse transform of
`2πi K_G · F_G / N`, `F_G` the Fourier coefficients of the components. -/
noncomputable def Spec.spectralDivergence (N : ℕ) (fwd bwd : (ℕ → ℂ) → (ℕ → ℂ)) (K : ℕ → V3 ℝ) (field : ℕ → ℂ) (i : ℕ) : ℂ :=
  2 * Real.pi * Complex.I / N * bwd (fun G => if G < N then (K G).x * fwd (fun j => field (3 * j)) G +
    (K G).y * fwd (fun j => field (3 * j + 1)) G + (K G).z * fwd (fun j => field (3 * j + 2)) G else 0) i

/-- C07 (partial: only for wavevectors none of which has both `Ky ≠ 0` and `Kz ≠ 0`; the general statement is refuted
below).  For every field, `compute-field-divergence` returns the spectral divergence, for every transform that depends
only on its first `N` inputs.  Missing: wavevectors with `Ky Kz ≠ 0`, for which the code is wrong. -/
theorem C07_divergence_partial (N : ℕ) (fwd bwd : (ℕ → ℂ) → (ℕ → ℂ)) (hb : ∀ f g : ℕ → ℂ, (∀ j < N, f j = g j) → ∀ i, bwd f i = bwd g i)
    (K : ℕ → V3 ℝ) (hK : ∀ G < N, (K G).y = 0 ∨ (K G).z = 0) (field : ℕ → ℂ) (i : ℕ) :
    fieldDivergence N fwd bwd (fun G => kData (K G)) field i = Spec.spectralDivergence N fwd bwd K field i := by
  unfold fieldDivergence Spec.spectralDivergence
  rw [hb (divLoop _ _ _) (fun G => if G < N then (K G).x * fwd (fun j => field (3 * j)) G +
    (K G).y * fwd (fun j => field (3 * j + 1)) G + (K G).z * fwd (fun j => field (3 * j + 2)) G else 0)
    (fun G hG => ?_) i]
  · set c := bwd _ i
    have hn : ((2 * Real.pi / N : ℝ) : ℂ) = 2 * Real.pi / N := by push_cast; rfl
    have : 2 * (Real.pi : ℂ) * Complex.I / N * c = ((2 * Real.pi / N : ℝ) : ℂ) * (Complex.I * c) := by
      rw [hn]; ring
    rw [this]
    apply Complex.ext <;> simp <;> ring
  · rw [divLoop_apply, if_pos hG, if_pos hG]
    obtain ⟨hx, hy, hz, -⟩ := C07_wavevector_iff (K G)
    rw [hx, hy, hz.2 (hK G hG)]
    have e0 : (3 * G + 0) % 3 = 0 := by omega
    have e1 : (3 * G + 1) % 3 = 1 := by omega
    have e2 : (3 * G + 2) % 3 = 2 := by omega
    have f0 : (3 * G + 0) / 3 = G := by omega
    have f1 : (3 * G + 1) / 3 = G := by omega
    have f2 : (3 * G + 2) / 3 = G := by omega
    simp only [e0, e1, e2, f0, f1, f2, Nat.add_zero]
    apply Complex.ext <;> simp <;> ring

/-- C07 (refutation of the full statement).  On a one-point grid with `k = (0,1,1)` and the constant field `(0,0,1)` the
divergence is `2πi` but `compute-field-divergence` returns 0. -/
theorem C07_divergence_refuted : ∃ (K : ℕ → V3 ℝ) (field : ℕ → ℂ),
    fieldDivergence 1 id id (fun G => kData (K G)) field 0 = 0 ∧ Spec.spectralDivergence 1 id id K field 0 = 2 * Real.pi * Complex.I := by
  refine ⟨fun _ => ⟨0, 1, 1⟩, fun a => if a = 2 then 1 else 0, ?_, ?_⟩
  · obtain ⟨hx, hy, -, hz⟩ := C07_wavevector_iff ⟨0, 1, 1⟩
    have hz0 : (divK (kData ⟨0, 1, 1⟩)).z = 0 := by
      have := hz (by norm_num)
      norm_num at this
      exact this
    simp only [fieldDivergence, id, divLoop_apply]
    apply Complex.ext <;> simp [hx, hy, hz0]
  · simp [Spec.spectralDivergence]

/-- C07 (real-scalar build).  In `mpbi` (serial: `last_dim_size = 2*(last_dim/2+1)`, maxwell.c) the loop of
`compute-field-divergence` indexes the array `k_plus_G`, which has `other_dims*last_dim` entries, with
`i*last_dim_size + j`; for every grid with at least two rows this leaves the array. -/
theorem C07_real_build_out_of_bounds (other_dims last_dim : ℕ) (h1 : 2 ≤ other_dims) (h2 : 1 ≤ last_dim) :
    ∃ i < other_dims, ∃ j < last_dim, other_dims * last_dim ≤ i * (2 * (last_dim / 2 + 1)) + j := by
  refine ⟨other_dims - 1, by omega, last_dim - 1, by omega, ?_⟩
  obtain ⟨o, rfl⟩ : ∃ o, other_dims = o + 2 := ⟨other_dims - 2, by omega⟩
  have : last_dim + 1 ≤ 2 * (last_dim / 2 + 1) := by omega
  calc (o + 2) * last_dim ≤ (o + 1) * (last_dim + 1) + (last_dim - 1) := by
        have : (o + 2) * last_dim = (o + 1) * last_dim + last_dim := by ring
        have : (o + 1) * (last_dim + 1) = (o + 1) * last_dim + (o + 1) := by ring
        omega
    _ ≤ _ := by
        have := Nat.mul_le_mul_left (o + 1) this
        have e : o + 2 - 1 = o + 1 := by omega
        rw [e]; omega

/-- Non-vacuity of the partial theorem: two-dimensional wavevectors (`Kz = 0`). -/
example : ∀ G < 5, ((fun G : ℕ => (⟨(G : ℝ), 2, 0⟩ : V3 ℝ)) G).y = 0 ∨ ((fun G : ℕ => (⟨(G : ℝ), 2, 0⟩ : V3 ℝ)) G).z = 0 :=
  fun _ _ => Or.inr rfl

end Mpb.Maxwell

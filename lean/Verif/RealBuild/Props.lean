import Verif.RealBuild.Bands

/-!
# Property C111: the build for structures with inversion symmetry computes what the general build computes

`mpbi` works with real amplitudes, real-to-complex transforms, padded rows and half of the tensors.  For every grid (in one, two or three
dimensions, odd or even), lattice, wavevector and structure with inversion symmetry its operators applied to real blocks give exactly what the
operators of `mpb` give, and the two programs have the same modes with the same multiplicities.
-/

namespace Mpb.RealBuild
open Mpb.Maxwell Mpb.Maxwell.Spec Mpb.Invariance Mpb.Invariance.Spec Mpb.Field Spec

local notation "conj" => starRingEnd ℂ

/-- C111 (operator).  Whatever the buffers, the padding and the output contained: `maxwell_operator` of the inversion-symmetric build does not
return exactly when that of the general build does not; when they return, the results are the same numbers, and the real one writes nothing beyond
its `N*2*p` numbers. -/
theorem C111_operator {w : Fftw} {d : RData} {P : Problem} (hw : IsC2R ⟨P.nx, P.ny, P.nz⟩ w) (hd : Represents d P) (hs : Symmetric P) (p : ℕ)
    (bufs : ℕ → ℕ → ℝ) (bufs' : ℕ → ℕ → ℂ) (X Y : ℕ → ℝ) (Y' : ℕ → ℂ) :
    (maxwellOperatorR w d p bufs X Y = none ↔ maxwellOperator P.data p bufs' (asComplex X) Y' = none) ∧
    ∀ R R', maxwellOperatorR w d p bufs X Y = some R → maxwellOperator P.data p bufs' (asComplex X) Y' = some R' →
      (∀ a < P.nx * P.ny * P.nz * 2 * p, R' a = R a) ∧ ∀ a ≥ P.nx * P.ny * P.nz * 2 * p, R a = Y a := by
  have hnfb : P.data.nfb = d.nfb := hd.nfb.symm
  rcases Nat.eq_zero_or_pos d.nfb with h0 | hn
  · rcases Nat.eq_zero_or_pos p with hp | hp
    · subst hp
      unfold maxwellOperatorR maxwellOperator
      rw [if_neg (by omega), if_neg (by omega)]
      refine ⟨by simp, fun R R' e e' => ⟨fun a ha => by simp at ha, fun a _ => ?_⟩⟩
      rw [bandChunks, if_neg (by omega)] at e
      rw [← Option.some.inj e]
      rfl
    · have e1 : maxwellOperatorR w d p bufs X Y = none := by unfold maxwellOperatorR; rw [if_pos ⟨h0, hp⟩]
      have e2 : maxwellOperator P.data p bufs' (asComplex X) Y' = none := by unfold maxwellOperator; rw [if_pos ⟨hnfb.trans h0, hp⟩]
      rw [e1, e2]
      simp
  · obtain ⟨R, e1, g1, k1⟩ := operatorR_bands hw hd hs hn p bufs X Y
    obtain ⟨R', e2, g2, -⟩ := C04_bands P.data p (hnfb ▸ hn) bufs' (asComplex X) Y'
    rw [e1, e2]
    refine ⟨by simp, ?_⟩
    rintro _ _ ⟨rfl⟩ ⟨rfl⟩
    have hN := N_eq hd
    refine ⟨fun a ha => eq_of_bands (N := P.data.N) (fun b hb G hG => ?_) ha, fun a ha => k1 a (by rw [hN]; exact ha)⟩
    rw [g2 b hb G hG, g1 b hb G (hN ▸ hG), band_asComplex]

/-- C111 (inverse permeability).  The same for `maxwell_muinv_operator`. -/
theorem C111_muinv {w : Fftw} {d : RData} {P : Problem} (hw : IsC2R ⟨P.nx, P.ny, P.nz⟩ w) (hd : Represents d P) (hs : Symmetric P) (p : ℕ)
    (bufs : ℕ → ℕ → ℝ) (bufs' : ℕ → ℕ → ℂ) (X Y : ℕ → ℝ) (Y' : ℕ → ℂ) :
    (muinvOperatorR w d p bufs X Y = none ↔ muinvOperator P.data p bufs' (asComplex X) Y' = none) ∧
    ∀ R R', muinvOperatorR w d p bufs X Y = some R → muinvOperator P.data p bufs' (asComplex X) Y' = some R' →
      (∀ a < P.nx * P.ny * P.nz * 2 * p, R' a = R a) ∧ ∀ a ≥ P.nx * P.ny * P.nz * 2 * p, R a = Y a := by
  have hnfb : P.data.nfb = d.nfb := hd.nfb.symm
  rcases Nat.eq_zero_or_pos d.nfb with h0 | hn
  · rcases Nat.eq_zero_or_pos p with hp | hp
    · subst hp
      unfold muinvOperatorR muinvOperator
      rw [if_neg (by omega), if_neg (by omega)]
      refine ⟨by simp, fun R R' e e' => ⟨fun a ha => by simp at ha, fun a _ => ?_⟩⟩
      rw [bandChunks, if_neg (by omega)] at e
      rw [← Option.some.inj e]
      rfl
    · have e1 : muinvOperatorR w d p bufs X Y = none := by unfold muinvOperatorR; rw [if_pos ⟨h0, hp⟩]
      have e2 : muinvOperator P.data p bufs' (asComplex X) Y' = none := by unfold muinvOperator; rw [if_pos ⟨hnfb.trans h0, hp⟩]
      rw [e1, e2]
      simp
  · obtain ⟨R, e1, g1, k1⟩ := muinvR_bands hw hd hs hn p bufs X Y
    obtain ⟨R', e2, g2, -⟩ := C04_muinv_bands P.data p (hnfb ▸ hn) bufs' (asComplex X) Y'
    rw [e1, e2]
    refine ⟨by simp, ?_⟩
    rintro _ _ ⟨rfl⟩ ⟨rfl⟩
    have hN := N_eq hd
    refine ⟨fun a ha => eq_of_bands (N := P.data.N) (fun b hb G hG => ?_) ha, fun a ha => k1 a (by rw [hN]; exact ha)⟩
    rw [g2 b hb G hG, g1 b hb G (hN ▸ hG), band_asComplex]

/-- C111 (modes).  Real amplitudes are a mode of the inversion-symmetric build exactly if they are a mode of the general build, with the same
frequency. -/
theorem C111_modes {w : Fftw} {d : RData} {P : Problem} (hw : IsC2R ⟨P.nx, P.ny, P.nz⟩ w) (hd : Represents d P) (hs : Symmetric P) (lam : ℝ)
    (X : ℕ → ℝ) : IsModeR w d lam X ↔ IsMode P.data lam (asComplex X) := by
  have hN := N_eq hd
  have hsz : P.data.N * 2 = P.nx * P.ny * P.nz * 2 * 1 := by rw [mul_one]; rfl
  unfold IsModeR IsMode
  rw [hN]
  refine and_congr (by simp [asComplex]) ⟨fun h bufs bufs' Y Y' => ?_, fun h bufs bufs' Y Y' => ?_⟩
  · obtain ⟨R, B, e1, e2, e3⟩ := h (fun _ _ => 0) (fun _ _ => 0) (fun _ => 0) (fun _ => 0)
    obtain ⟨i1, v1⟩ := C111_operator hw hd hs 1 (fun _ _ => 0) bufs X (fun _ => 0) Y
    obtain ⟨i2, v2⟩ := C111_muinv hw hd hs 1 (fun _ _ => 0) bufs' X (fun _ => 0) Y'
    obtain ⟨R', f1⟩ := Option.ne_none_iff_exists'.mp (fun hc => by rw [i1.2 hc] at e1; simp at e1)
    obtain ⟨B', f2⟩ := Option.ne_none_iff_exists'.mp (fun hc => by rw [i2.2 hc] at e2; simp at e2)
    refine ⟨R', B', f1, f2, fun a ha => ?_⟩
    rw [(v1 R R' e1 f1).1 a (hsz ▸ ha), (v2 B B' e2 f2).1 a (hsz ▸ ha), e3 a ha]
    push_cast
    rfl
  · obtain ⟨R', B', e1, e2, e3⟩ := h (fun _ _ => 0) (fun _ _ => 0) (fun _ => 0) (fun _ => 0)
    obtain ⟨i1, v1⟩ := C111_operator hw hd hs 1 bufs (fun _ _ => 0) X Y (fun _ => 0)
    obtain ⟨i2, v2⟩ := C111_muinv hw hd hs 1 bufs' (fun _ _ => 0) X Y' (fun _ => 0)
    obtain ⟨R, f1⟩ := Option.ne_none_iff_exists'.mp (fun hc => by rw [i1.1 hc] at e1; simp at e1)
    obtain ⟨B, f2⟩ := Option.ne_none_iff_exists'.mp (fun hc => by rw [i2.1 hc] at e2; simp at e2)
    refine ⟨R, B, f1, f2, fun a ha => ?_⟩
    have := e3 a ha
    rw [(v1 R R' f1 e1).1 a (hsz ▸ ha), (v2 B B' f2 e2).1 a (hsz ▸ ha)] at this
    exact_mod_cast this

theorem bandMuinv_linear (d : OpData) (x y : ℕ → ℂ × ℂ) (s t : ℂ) (G : ℕ) :
    bandMuinv d (fun G => (s * (x G).1 + t * (y G).1, s * (x G).2 + t * (y G).2)) G =
      (s * (bandMuinv d x G).1 + t * (bandMuinv d y G).1, s * (bandMuinv d x G).2 + t * (bandMuinv d y G).2) := by
  unfold bandMuinv
  cases d.muInv with
  | none => rfl
  | some mu =>
    refine colOp_linear t2c c2t d _ _ s t (fun k x y x' y' => ?_) (fun k a b => ?_) x y G
    · ext <;> apply Complex.ext <;> simp [t2c] <;> ring
    · refine Prod.ext ?_ ?_ <;> apply Complex.ext <;> simp [c2t] <;> ring

/-- C111 (real and imaginary parts).  The real part and the imaginary part of every mode of the general build are each zero or a mode of the
inversion-symmetric build with the same frequency. -/
theorem C111_parts {w : Fftw} {d : RData} {P : Problem} (hw : IsC2R ⟨P.nx, P.ny, P.nz⟩ w) (hd : Represents d P) (hs : Symmetric P) (lam : ℝ)
    (X : ℕ → ℂ) (h : IsMode P.data lam X) :
    ((∀ a < P.nx * P.ny * P.nz * 2, (X a).re = 0) ∨ IsModeR w d lam fun a => (X a).re) ∧
    ((∀ a < P.nx * P.ny * P.nz * 2, (X a).im = 0) ∨ IsModeR w d lam fun a => (X a).im) := by
  have hn : 0 < P.data.nfb := by
    rcases Nat.eq_zero_or_pos P.data.nfb with h0 | h0
    · exact absurd h (not_isMode _ h0 _ _)
    · exact h0
  have hnd : 0 < d.nfb := by rw [hd.nfb]; exact hn
  have hN := N_eq hd
  have hm := ((isMode_iff _ hn _ _).1 h).2
  -- the operators are real
  have real : ∀ x : ℕ → ℝ, ∀ G < P.data.N, ∃ u v : ℝ × ℝ, bandMaxwell P.data (cband 1 x 0) G = castP u ∧ bandMuinv P.data (cband 1 x 0) G = castP v := by
    intro x G hG
    obtain ⟨R, -, g1, -⟩ := operatorR_bands hw hd hs hnd 1 (fun _ _ => 0) x (fun _ => 0)
    obtain ⟨B, -, g2, -⟩ := muinvR_bands hw hd hs hnd 1 (fun _ _ => 0) x (fun _ => 0)
    exact ⟨_, _, (g1 0 (by omega) G (hN ▸ hG)).symm, (g2 0 (by omega) G (hN ▸ hG)).symm⟩
  have split : band 1 X 0 = fun G => (1 * (cband 1 (fun a => (X a).re) 0 G).1 + Complex.I * (cband 1 (fun a => (X a).im) 0 G).1,
      1 * (cband 1 (fun a => (X a).re) 0 G).2 + Complex.I * (cband 1 (fun a => (X a).im) 0 G).2) := by
    funext G
    refine Prod.ext ?_ ?_ <;> apply Complex.ext <;> simp [band, cband, castP, bandR]
  have both : ∀ G < P.data.N,
      (bandMaxwell P.data (cband 1 (fun a => (X a).re) 0) G = ((lam : ℂ) * (bandMuinv P.data (cband 1 (fun a => (X a).re) 0) G).1,
        (lam : ℂ) * (bandMuinv P.data (cband 1 (fun a => (X a).re) 0) G).2)) ∧
      (bandMaxwell P.data (cband 1 (fun a => (X a).im) 0) G = ((lam : ℂ) * (bandMuinv P.data (cband 1 (fun a => (X a).im) 0) G).1,
        (lam : ℂ) * (bandMuinv P.data (cband 1 (fun a => (X a).im) 0) G).2)) := by
    intro G hG
    have := hm G hG
    rw [split, C04_linear, bandMuinv_linear] at this
    obtain ⟨u, v, e1, e2⟩ := real (fun a => (X a).re) G hG
    obtain ⟨u', v', e3, e4⟩ := real (fun a => (X a).im) G hG
    rw [e1, e2, e3, e4] at this ⊢
    obtain ⟨g1, g2⟩ := Prod.mk.injEq .. ▸ this
    have r1 := congrArg Complex.re g1
    have r2 := congrArg Complex.im g1
    have r3 := congrArg Complex.re g2
    have r4 := congrArg Complex.im g2
    simp [castP] at r1 r2 r3 r4
    refine ⟨Prod.ext ?_ ?_, Prod.ext ?_ ?_⟩ <;> simp only [castP] <;> norm_cast
  have fin : ∀ x : ℕ → ℝ, (∀ G < P.data.N, bandMaxwell P.data (cband 1 x 0) G = ((lam : ℂ) * (bandMuinv P.data (cband 1 x 0) G).1,
        (lam : ℂ) * (bandMuinv P.data (cband 1 x 0) G).2)) → (∀ a < P.nx * P.ny * P.nz * 2, x a = 0) ∨ IsModeR w d lam x := by
    intro x hx
    by_cases hz : ∀ a < P.nx * P.ny * P.nz * 2, x a = 0
    · exact Or.inl hz
    · right
      rw [C111_modes hw hd hs, isMode_iff _ hn]
      refine ⟨?_, hx⟩
      by_contra hc
      push Not at hc
      refine hz fun a ha => ?_
      have := hc (a / 2) (by show a / 2 < P.nx * P.ny * P.nz; omega)
      rw [band1] at this
      obtain ⟨g1, g2⟩ := Prod.mk.injEq .. ▸ this
      simp only [asComplex, Complex.ofReal_eq_zero] at g1 g2
      rcases Nat.mod_two_eq_zero_or_one a with h | h
      · rwa [show a / 2 * 2 = a by omega] at g1
      · rwa [show a / 2 * 2 + 1 = a by omega] at g2
  exact ⟨fin _ fun G hG => (both G hG).1, fin _ fun G hG => (both G hG).2⟩

/-- C111 (bands).  For every `n` and every bound on the frequency: the inversion-symmetric build has `n` independent modes (over the reals) up to
that bound exactly if the general build has (over the complex numbers): the same spectrum with the same multiplicities, hence the same bands. -/
theorem C111_bands {w : Fftw} {d : RData} {P : Problem} (hw : IsC2R ⟨P.nx, P.ny, P.nz⟩ w) (hd : Represents d P) (hs : Symmetric P) (lam : ℝ)
    (n : ℕ) : ModesUpToR w d lam n ↔ ModesUpTo P.data lam n := by
  have hN := N_eq hd
  constructor
  · rintro ⟨X, hX, hm⟩
    refine ⟨fun i => asComplex (X i), fun c hc i => ?_, fun i => ?_⟩
    · have h1 := hX (fun i => (c i).re) (fun a ha => by
        have := congrArg Complex.re (hc a (hN ▸ ha))
        simpa [asComplex] using this) i
      have h2 := hX (fun i => (c i).im) (fun a ha => by
        have := congrArg Complex.im (hc a (hN ▸ ha))
        simpa [asComplex] using this) i
      exact Complex.ext h1 h2
    · obtain ⟨mu, hmu, h⟩ := hm i
      exact ⟨mu, hmu, (C111_modes hw hd hs mu (X i)).1 h⟩
  · rintro ⟨X, hX, hm⟩
    have hli : LinearIndependent ℂ (fun i => firstOf (P.data.N * 2) (X i)) := by
      rw [Fintype.linearIndependent_iff]
      intro c hc
      refine hX c fun a ha => ?_
      have := congrFun hc ⟨a, ha⟩
      simpa [firstOf] using this
    obtain ⟨Y, hY, hsel⟩ := real_selection _ hli
    have hZ : ∀ i, ∃ Z : ℕ → ℝ, (∀ a : Fin (P.data.N * 2), Z a = Y i a) ∧ ∃ mu ≤ lam, IsModeR w d mu Z := by
      intro i
      obtain ⟨j, hj⟩ := hsel i
      obtain ⟨mu, hmu, hmode⟩ := hm j
      obtain ⟨pr, pi⟩ := C111_parts hw hd hs mu (X j) hmode
      have hne : Y i ≠ 0 := hY.ne_zero i
      rcases hj with hj | hj
      · refine ⟨fun a => (X j a).re, fun a => (congrFun hj a).symm, mu, hmu, pr.resolve_left fun hz => hne ?_⟩
        rw [hj]
        funext a
        exact hz a a.2
      · refine ⟨fun a => (X j a).im, fun a => (congrFun hj a).symm, mu, hmu, pi.resolve_left fun hz => hne ?_⟩
        rw [hj]
        funext a
        exact hz a a.2
    choose Z hZ1 hZ2 using hZ
    refine ⟨Z, fun c hc i => ?_, hZ2⟩
    rw [Fintype.linearIndependent_iff] at hY
    refine hY c ?_ i
    funext a
    have := hc a (by rw [hN]; exact a.2)
    simp only [hZ1] at this
    simpa using this

/-! ### Non-vacuity -/

theorem opp_opp {nx ny nz r : ℕ} (hr : r < nx * ny * nz) : opp nx ny nz (opp nx ny nz r) = r := by
  obtain ⟨x, hx, y, hy, z, hz, rfl⟩ := index3 hr
  have m : ∀ {n i : ℕ}, i < n → (n - (n - i) % n) % n = i := by
    intro n i h
    rcases Nat.eq_zero_or_pos i with h0 | h0
    · subst h0; simp
    · rw [Nat.mod_eq_of_lt (by omega : n - i < n), show n - (n - i) = i by omega, Nat.mod_eq_of_lt h]
  unfold opp
  rw [split_x _ hy hz, split_y _ hy hz, split_z _ hz]
  unfold opposite address
  dsimp only
  rw [split_x _ (Nat.mod_lt _ (by omega)) (Nat.mod_lt _ (by omega)), split_y _ (Nat.mod_lt _ (by omega)) (Nat.mod_lt _ (by omega)),
    split_z _ (Nat.mod_lt _ (by omega)), m hx, m hy, m hz]

theorem opp_mod {nx ny nz r : ℕ} (hr : r < nx * ny * nz) :
    opp nx ny nz r % lastDim nx ny nz = (lastDim nx ny nz - r % lastDim nx ny nz) % lastDim nx ny nz := by
  obtain ⟨x, hx, y, hy, z, hz, rfl⟩ := index3 hr
  unfold opp
  rw [split_x _ hy hz, split_y _ hy hz, split_z _ hz]
  unfold opposite address
  dsimp only
  unfold lastDim
  split_ifs with h1 h2
  · subst h1 h2
    obtain rfl : y = 0 := by omega
    obtain rfl : z = 0 := by omega
    simp [Nat.mod_eq_of_lt hx]
  · subst h1
    obtain rfl : z = 0 := by omega
    simp [Nat.mod_eq_of_lt hy]
  · rw [split_z _ (Nat.mod_lt _ (by omega)), split_z _ hz]

open Classical in
/-- A transform as FFTW specifies it: complete the stored half by conjugation and transform. -/
noncomputable def refFftw (nx ny nz : ℕ) (junk : (ℕ → ℝ) → ℕ → ℝ) : Fftw where
  c2r h G :=
    let ld := lastDim nx ny nz
    let at' : ℕ → ℂ := fun r => h (r / ld * (ld / 2 + 1) + r % ld)
    (∑ r ∈ Finset.range (nx * ny * nz), dft 1 nx ny nz G r * (if r % ld ≤ ld / 2 then at' r else conj (at' (opp nx ny nz r)))).re
  junk := junk

/-- A transform with the property demanded of FFTW exists for every grid, with any use of the padding. -/
theorem refFftw_isC2R (nx ny nz : ℕ) (junk : (ℕ → ℝ) → ℕ → ℝ) : IsC2R ⟨nx, ny, nz⟩ (refFftw nx ny nz junk) := by
  intro X h hX hh G hG
  dsimp only at hX hh hG ⊢
  have hlp : 0 < lastDim nx ny nz := ld_pos (lt_of_le_of_lt (Nat.zero_le _) hG)
  have hX' : ∀ r < nx * ny * nz, X (opp nx ny nz r) = conj (X r) := by
    intro r hr
    obtain ⟨x, hx, y, hy, z, hz, rfl⟩ := index3 hr
    unfold opp
    rw [split_x _ hy hz, split_y _ hy hz, split_z _ hz]
    exact hX x hx y hy z hz
  have hst : ∀ r < nx * ny * nz, r % lastDim nx ny nz ≤ lastDim nx ny nz / 2 →
      h (r / lastDim nx ny nz * (lastDim nx ny nz / 2 + 1) + r % lastDim nx ny nz) = X r := by
    intro r hr hm
    have hj : r % lastDim nx ny nz < lastDim nx ny nz / 2 + 1 := by omega
    have hi : r / lastDim nx ny nz < otherDims nx ny nz := Nat.div_lt_of_lt_mul (by rw [Nat.mul_comm, od_ld]; exact hr)
    rw [hh _ (by rw [fftOutputSize_eq]; exact rowMajor_lt hi hj)]
    have e1 : (r / lastDim nx ny nz * (lastDim nx ny nz / 2 + 1) + r % lastDim nx ny nz) / (lastDim nx ny nz / 2 + 1) = r / lastDim nx ny nz := by
      rw [Nat.add_comm, Nat.add_mul_div_right _ _ (by omega), Nat.div_eq_of_lt hj, Nat.zero_add]
    have e2 : (r / lastDim nx ny nz * (lastDim nx ny nz / 2 + 1) + r % lastDim nx ny nz) % (lastDim nx ny nz / 2 + 1) = r % lastDim nx ny nz := by
      rw [Nat.add_comm, Nat.add_mul_mod_self_right, Nat.mod_eq_of_lt hj]
    rw [e1, e2, Nat.div_add_mod']
  have hsum : ∑ r ∈ Finset.range (nx * ny * nz), dft 1 nx ny nz G r * (if r % lastDim nx ny nz ≤ lastDim nx ny nz / 2 then
        h (r / lastDim nx ny nz * (lastDim nx ny nz / 2 + 1) + r % lastDim nx ny nz)
      else conj (h (opp nx ny nz r / lastDim nx ny nz * (lastDim nx ny nz / 2 + 1) + opp nx ny nz r % lastDim nx ny nz))) =
      ∑ r ∈ Finset.range (nx * ny * nz), dft 1 nx ny nz G r * X r := by
    refine Finset.sum_congr rfl fun r hr => ?_
    rw [Finset.mem_range] at hr
    congr 1
    split_ifs with hm
    · exact hst r hr hm
    · have hlt : r % lastDim nx ny nz < lastDim nx ny nz := Nat.mod_lt _ hlp
      rw [hst _ (opp_lt hr) (by rw [opp_mod hr, Nat.mod_eq_of_lt (by omega)]; omega), hX' r hr, Complex.conj_conj]
  have hreal : conj (∑ r ∈ Finset.range (nx * ny * nz), dft 1 nx ny nz G r * X r) = ∑ r ∈ Finset.range (nx * ny * nz), dft 1 nx ny nz G r * X r := by
    rw [map_sum]
    refine Finset.sum_bij' (fun r _ => opp nx ny nz r) (fun r _ => opp nx ny nz r) (fun r hr => ?_) (fun r hr => ?_) (fun r hr => ?_)
      (fun r hr => ?_) (fun r hr => ?_)
    · exact Finset.mem_range.2 (opp_lt (Finset.mem_range.1 hr))
    · exact Finset.mem_range.2 (opp_lt (Finset.mem_range.1 hr))
    · exact opp_opp (Finset.mem_range.1 hr)
    · exact opp_opp (Finset.mem_range.1 hr)
    · rw [Finset.mem_range] at hr
      rw [map_mul, hX' r hr, dft_conj, dft_conj, dft_opp hr]
  show (((∑ r ∈ Finset.range (nx * ny * nz), dft 1 nx ny nz G r * (if r % lastDim nx ny nz ≤ lastDim nx ny nz / 2 then
        h (r / lastDim nx ny nz * (lastDim nx ny nz / 2 + 1) + r % lastDim nx ny nz)
      else conj (h (opp nx ny nz r / lastDim nx ny nz * (lastDim nx ny nz / 2 + 1) + opp nx ny nz r % lastDim nx ny nz)))).re : ℝ) : ℂ) = _
  rw [hsum]
  exact Complex.conj_eq_iff_re.1 hreal

/-- An example in two dimensions: 2 × 3 points, a different material at the origin, complex tensors elsewhere. -/
noncomputable def exSym : Problem :=
  ⟨2, 3, 1, 1, ⟨⟨1, 0, 0⟩, ⟨0, 1, 0⟩, ⟨0, 0, 1⟩⟩, ⟨1 / 2, 0, 0⟩,
    fun r => if r % 3 = 0 then ⟨1 / 4, 1 / 4, 1 / 4, 0, 0, 0⟩ else if r % 3 = 1 then ⟨1, 1, 1, ⟨0, 1 / 3⟩, 0, 0⟩ else ⟨1, 1, 1, ⟨0, -1 / 3⟩, 0, 0⟩, none⟩

/-- The half of the tensors `mpbi` keeps for it. -/
noncomputable def exSymR : RData :=
  ⟨2, 3, 1, 1, exSym.data.kpg, fun q => if q % 2 = 0 then ⟨1 / 4, 1 / 4, 1 / 4, 0, 0, 0⟩ else ⟨1, 1, 1, ⟨0, 1 / 3⟩, 0, 0⟩, none⟩

example : Represents exSymR exSym ∧ Symmetric exSym ∧ IsC2R ⟨exSym.nx, exSym.ny, exSym.nz⟩ (refFftw 2 3 1 fun _ a => a) := by
  refine ⟨⟨rfl, rfl, rfl, rfl, rfl, ?_, Or.inl ⟨rfl, rfl⟩⟩, ⟨?_, fun f hf => ?_⟩, refFftw_isC2R 2 3 1 _⟩
  · show if (1 : ℕ) = 1 then (if (3 : ℕ) = 1 then ∀ x ≤ 2 / 2, x < 2 → exSymR.epsInv x = exSym.epsInv x
      else ∀ x < 2, ∀ y ≤ 3 / 2, y < 3 → exSymR.epsInv (x * (3 / 2 + 1) + y) = exSym.epsInv (address ⟨2, 3, 1⟩ x y 0))
      else ∀ x < 2, ∀ y < 3, ∀ z ≤ 1 / 2, z < 1 → exSymR.epsInv ((x * 3 + y) * (1 / 2 + 1) + z) = exSym.epsInv (address ⟨2, 3, 1⟩ x y z)
    rw [if_pos rfl, if_neg (by decide)]
    intro x hx y hy hy'
    have hx' : x < 2 := hx
    have hyy : y ≤ 1 := hy
    interval_cases x <;> interval_cases y <;> simp [exSym, exSymR, address]
  · intro x hx y hy z hz
    have hx' : x < 2 := hx
    have hy' : y < 3 := hy
    obtain rfl : z = 0 := by have : z < 1 := hz; omega
    have real : Conjugate (⟨1 / 4, 1 / 4, 1 / 4, 0, 0, 0⟩ : HMat) ⟨1 / 4, 1 / 4, 1 / 4, 0, 0, 0⟩ := by
      unfold Conjugate Tensor.Spec.toMatrix
      ext i j
      fin_cases i <;> fin_cases j <;> simp [map_ofNat]
    have cx : Conjugate (⟨1, 1, 1, ⟨0, 1 / 3⟩, 0, 0⟩ : HMat) ⟨1, 1, 1, ⟨0, -1 / 3⟩, 0, 0⟩ := by
      unfold Conjugate Tensor.Spec.toMatrix
      ext i j
      fin_cases i <;> fin_cases j <;> apply Complex.ext <;> simp <;> norm_num
    have cx' : Conjugate (⟨1, 1, 1, ⟨0, -1 / 3⟩, 0, 0⟩ : HMat) ⟨1, 1, 1, ⟨0, 1 / 3⟩, 0, 0⟩ := by
      unfold Conjugate Tensor.Spec.toMatrix
      ext i j
      fin_cases i <;> fin_cases j <;> apply Complex.ext <;> simp <;> norm_num
    interval_cases x <;> interval_cases y
    · exact real
    · exact cx
    · exact cx'
    · exact real
    · exact cx
    · exact cx'
  · cases hf

end Mpb.RealBuild

import Verif.RealBuild.Props
import Verif.RealBuild.FieldModel
import Verif.Field.EnergyProps
import Verif.Invariance.Homogeneous
import Verif.Invariance.Rotate

/-!
# Properties C111 and C47 for the fields of the build for structures with inversion symmetry

`get-dfield`, `get-hfield`, `get-bfield` of `mpbi` store, at the half of the points they keep, what those of `mpb` store there, and
`compute-field-energy` returns the same numbers; so the fields are normalised.
-/

namespace Mpb.RealBuild
open Mpb.Maxwell Mpb.Maxwell.Spec Mpb.Invariance Mpb.Invariance.Spec Mpb.Field Mpb.Field.Spec Spec

local notation "conj" => starRingEnd ℂ

/-! ### Points -/

theorem last_eq {nx ny nz lds : ℕ} {i : Bool} (hy : 0 < ny) (hz : 0 < nz) : (Shape.mk nx ny nz i lds).last = lastDim nx ny nz := by
  unfold Shape.last lastDim
  by_cases h : nz = 1
  · rw [if_neg (by dsimp only; omega), if_pos h]
    by_cases h' : ny = 1
    · rw [if_neg (by dsimp only; omega), if_pos h']
    · rw [if_pos (by dsimp only; omega), if_neg h']
  · rw [if_pos (by dsimp only; omega), if_neg h]

theorem pos3 {a b c : ℕ} (h : 0 < a * b * c) : 0 < a ∧ 0 < b ∧ 0 < c := by
  refine ⟨Nat.pos_of_ne_zero ?_, Nat.pos_of_ne_zero ?_, Nat.pos_of_ne_zero ?_⟩ <;> rintro rfl <;> simp at h

theorem shape_ok {d : RData} (hN : 0 < d.N) : d.shape.Ok ∧ Padded d.shape ∧ d.shape.outSize = fftOutputSize d.nx d.ny d.nz := by
  obtain ⟨hx, hy, hz⟩ := pos3 hN
  have hl : d.shape.last = lastDim d.nx d.ny d.nz := last_eq hy hz
  have hnl : d.shape.nlast = lastDim d.nx d.ny d.nz / 2 + 1 := Nat.mul_div_cancel_left _ Nat.two_pos
  refine ⟨⟨hx, hy, hz, fun _ => ?_⟩, fun _ => ?_, ?_⟩
  · rw [hnl, ← hl]; rfl
  · rw [hnl]; rfl
  · unfold Shape.outSize Shape.other fftOutputSize otherDims
    rw [hl]
    rfl

theorem addr_full {d : RData} (hN : 0 < d.N) {p : ℕ × ℕ × ℕ} (h1 : p.1 < d.shape.dims.1) (h2 : p.2.1 < d.shape.dims.2.1)
    (h3 : p.2.2 < d.shape.dims.2.2) :
    addr d.shape p < fftOutputSize d.nx d.ny d.nz ∧ full d.nx d.ny d.nz (addr d.shape p) = address ⟨d.nx, d.ny, d.nz⟩ p.1 p.2.1 p.2.2 ∧
      p.1 < d.nx ∧ p.2.1 < d.ny ∧ p.2.2 < d.nz := by
  obtain ⟨hx, hy, hz⟩ := pos3 hN
  obtain ⟨x, y, z⟩ := p
  have hnl : d.shape.nlast = lastDim d.nx d.ny d.nz / 2 + 1 := Nat.mul_div_cancel_left _ Nat.two_pos
  have hi : d.shape.inv = true := rfl
  have e1 : d.shape.nx = d.nx := rfl
  have e2 : d.shape.ny = d.ny := rfl
  have e3 : d.shape.nz = d.nz := rfl
  have ho := od_ld d.nx d.ny d.nz
  have hlp : 0 < lastDim d.nx d.ny d.nz := ld_pos hN
  rw [fftOutputSize_eq]
  unfold full addr address
  unfold Shape.dims at h1 h2 h3 ⊢
  rw [if_pos hi] at h1 h2 h3 ⊢
  simp only [e1, e2, e3, hnl] at h1 h2 h3 ⊢
  generalize hod : otherDims d.nx d.ny d.nz = od at ho ⊢
  by_cases hz1 : d.nz = 1
  · rw [if_neg (by omega)] at h1 h2 h3 ⊢
    by_cases hy1 : d.ny = 1
    · rw [if_neg (by omega)] at h1 h2 h3 ⊢
      have hl : lastDim d.nx d.ny d.nz = d.nx := by unfold lastDim; rw [if_pos hz1, if_pos hy1]
      rw [hl] at h1 h2 h3 ho hlp ⊢
      simp only [hz1, hy1] at h1 h2 h3 ho ⊢
      have ho1 : od = 1 := by
        have : od * d.nx = 1 * d.nx := by rw [ho]; ring
        exact Nat.eq_of_mul_eq_mul_right hx this
      obtain rfl : y = 0 := by omega
      obtain rfl : z = 0 := by omega
      subst ho1
      simp only [Nat.mul_one, Nat.add_zero, Nat.one_mul]
      rw [Nat.div_eq_of_lt h1, Nat.mod_eq_of_lt h1]
      refine ⟨h1, by ring, by omega, by omega, by omega⟩
    · rw [if_pos (by omega)] at h1 h2 h3 ⊢
      have hl : lastDim d.nx d.ny d.nz = d.ny := by unfold lastDim; rw [if_pos hz1, if_neg hy1]
      rw [hl] at h1 h2 h3 ho hlp ⊢
      simp only [hz1] at h1 h2 h3 ho ⊢
      have ho1 : od = d.nx := by
        have : od * d.ny = d.nx * d.ny := by rw [ho]; ring
        exact Nat.eq_of_mul_eq_mul_right hy this
      obtain rfl : z = 0 := by omega
      subst ho1
      simp only [Nat.mul_one, Nat.add_zero]
      have hq : (x * (d.ny / 2 + 1) + y) / (d.ny / 2 + 1) = x := by
        rw [Nat.mul_comm, Nat.mul_add_div (by omega), Nat.div_eq_of_lt h2, Nat.add_zero]
      rw [hq, split_z x h2]
      refine ⟨rowMajor_lt h1 h2, rfl, h1, by omega, by omega⟩
  · rw [if_pos (by omega)] at h1 h2 h3 ⊢
    have hl : lastDim d.nx d.ny d.nz = d.nz := by unfold lastDim; rw [if_neg hz1]
    rw [hl] at h1 h2 h3 ho hlp ⊢
    have ho1 : od = d.nx * d.ny := Nat.eq_of_mul_eq_mul_right hz ho
    subst ho1
    have hq : ((x * d.ny + y) * (d.nz / 2 + 1) + z) / (d.nz / 2 + 1) = x * d.ny + y := by
      rw [Nat.mul_comm, Nat.mul_add_div (by omega), Nat.div_eq_of_lt h3, Nat.add_zero]
    dsimp only
    have h3' : z < d.nz / 2 + 1 := h3
    rw [hq, split_z _ h3']
    refine ⟨rowMajor_lt (rowMajor_lt h1 h2) h3', rfl, h1, h2, by omega⟩

theorem mirror_opposite {d : RData} {p : ℕ × ℕ × ℕ} (h1 : p.1 < d.nx) (h2 : p.2.1 < d.ny) (h3 : p.2.2 < d.nz) :
    address ⟨d.nx, d.ny, d.nz⟩ (d.shape.mirror p).1 (d.shape.mirror p).2.1 (d.shape.mirror p).2.2 =
      opp d.nx d.ny d.nz (address ⟨d.nx, d.ny, d.nz⟩ p.1 p.2.1 p.2.2) := by
  have m : ∀ n x : ℕ, x < n → (if x ≠ 0 then n - x else 0) = (n - x) % n := by
    intro n x hx
    by_cases h0 : x = 0
    · subst h0; simp
    · rw [if_pos h0, Nat.mod_eq_of_lt (by omega)]
  unfold Shape.mirror opp
  have e : address ⟨d.nx, d.ny, d.nz⟩ p.1 p.2.1 p.2.2 = (p.1 * d.ny + p.2.1) * d.nz + p.2.2 := rfl
  rw [e, split_x _ h2 h3, split_y _ h2 h3, split_z _ h3]
  unfold opposite
  exact congr (congr (congrArg (address ⟨d.nx, d.ny, d.nz⟩) (m _ _ h1)) (m _ _ h2)) (m _ _ h3)

/-! ### Loaded fields -/

/-- `mem` holds a field on the whole cell, conjugate at opposite points, and `memR` its stored half. -/
structure HalfField (nx ny nz : ℕ) (memR mem : ℕ → ℝ) : Prop where
  half : ∀ q < fftOutputSize nx ny nz, cvec memR q = cvec mem (full nx ny nz q)
  opp : ∀ r < nx * ny * nz, cvec mem (opp nx ny nz r) = conjV (cvec mem r)

theorem transform_opp {nx ny nz r : ℕ} (hr : r < nx * ny * nz) {u : ℕ → V3 ℂ} (hu : ∀ G < nx * ny * nz, u G = conjV (u G)) :
    transform (dft (-1) nx ny nz) (nx * ny * nz) u (opp nx ny nz r) = conjV (transform (dft (-1) nx ny nz) (nx * ny * nz) u r) := by
  have key : ∀ f : V3 ℂ → ℂ, (∀ v, f (conjV v) = conj (f v)) → ∑ G ∈ Finset.range (nx * ny * nz), dft (-1) nx ny nz (opp nx ny nz r) G * f (u G) =
      conj (∑ G ∈ Finset.range (nx * ny * nz), dft (-1) nx ny nz r G * f (u G)) := by
    intro f hf
    rw [map_sum]
    refine Finset.sum_congr rfl fun G hG => ?_
    rw [map_mul, dft_opp hr, ← hf, ← hu G (Finset.mem_range.1 hG)]
  ext
  · exact key V3.x fun _ => rfl
  · exact key V3.y fun _ => rfl
  · exact key V3.z fun _ => rfl

theorem loaded_half {exR : KData → ℝ → ℝ → V3 ℝ} {ex : KData → ℂ → ℂ → V3 ℂ} (hex : ∀ k a b, toC (exR k a b) = ex k a b) {d : RData}
    {P : Problem} (hd : Represents d P) (s : ℝ) (p p' b b' : ℕ) (X buf : ℕ → ℝ) (X' buf' : ℕ → ℂ)
    (hX : ∀ G < P.data.N, band p' X' b' G = cband p X b G) :
    HalfField P.nx P.ny P.nz (scaleR (fftOutputSize d.nx d.ny d.nz) s (fromHR exR d p X buf b 1))
      (toReals (scaleField P.data.N s (computeFft P.data.Wf P.data.N (1 * 3)
        (fillFft ex P.data.od P.data.ld P.data.kpg p' X' buf' b' 1) buf'))) := by
  obtain ⟨hx, hy, hz, -, hk, -, -⟩ := hd
  obtain ⟨nx, ny, nz, nfb, kpg, epsInv, muInv⟩ := d
  dsimp only at hx hy hz hk
  subst hx hy hz hk
  set u : ℕ → V3 ℂ := fun G => ex (P.data.kpg G) (cband p X b G).1 (cband p X b G).2 with hu
  have hc : ∀ r < P.data.N, cvec (toReals (scaleField P.data.N s (computeFft P.data.Wf P.data.N (1 * 3)
      (fillFft ex P.data.od P.data.ld P.data.kpg p' X' buf' b' 1) buf'))) r =
      V3.smul (s : ℂ) (transform (dft (-1) P.nx P.ny P.nz) (P.nx * P.ny * P.nz) u r) := by
    intro r hr
    refine scaled_vec P.data.N s _ (transform (dft (-1) P.nx P.ny P.nz) (P.nx * P.ny * P.nz) u) (fun r hr c hc => ?_) hr
    rw [fillTransform ex P.data p' X' buf' b' hr hc, transform_congr P.data (v := u) fun G hG => by rw [hX G hG]]
    rfl
  constructor
  · intro q hq
    have hN : 0 < P.nx * P.ny * P.nz := by
      rcases Nat.eq_zero_or_pos (P.nx * P.ny * P.nz) with h0 | h0
      · rw [fftOutputSize_eq, otherDims, h0, Nat.zero_div, Nat.zero_mul] at hq
        exact absurd hq (Nat.not_lt_zero _)
      · exact h0
    have hlp := ld_pos hN
    rw [hc (full P.nx P.ny P.nz q) (full_lt hlp hq)]
    have hf : ∀ c < 3, cplx (scaleR (fftOutputSize P.nx P.ny P.nz) s (fromHR exR ⟨P.nx, P.ny, P.nz, nfb, P.data.kpg, epsInv, muInv⟩ p X buf b 1))
        (3 * q + c) = (s : ℂ) * (transform (dft (-1) P.nx P.ny P.nz) (P.nx * P.ny * P.nz) u (full P.nx P.ny P.nz q)).get c := by
      intro c hc
      have h1 : cplx (scaleR (fftOutputSize P.nx P.ny P.nz) s (fromHR exR ⟨P.nx, P.ny, P.nz, nfb, P.data.kpg, epsInv, muInv⟩ p X buf b 1))
          (3 * q + c) = (s : ℂ) * cplx (fromHR exR ⟨P.nx, P.ny, P.nz, nfb, P.data.kpg, epsInv, muInv⟩ p X buf b 1) (3 * (q * 1 + 0) + c) := by
        have e0 : 3 * (q * 1 + 0) + c = 3 * q + c := by ring
        unfold cplx scaleR
        rw [if_pos (by omega), if_pos (by omega), e0]
        apply Complex.ext <;> simp <;> ring
      rw [h1]
      congr 1
      refine (r2c_apply _ hq Nat.zero_lt_one hc).trans ?_
      have : ∀ G ∈ Finset.range (P.nx * P.ny * P.nz), dft (-1) P.nx P.ny P.nz (full P.nx P.ny P.nz q) G *
          (fillFftR exR (otherDims P.nx P.ny P.nz) (lastDim P.nx P.ny P.nz) (lastDimSize P.nx P.ny P.nz) P.data.kpg p X buf b 1
            (3 * ((G / lastDim P.nx P.ny P.nz * lastDimSize P.nx P.ny P.nz + G % lastDim P.nx P.ny P.nz) * 1 + 0) + c) : ℂ) =
          dft (-1) P.nx P.ny P.nz (full P.nx P.ny P.nz q) G * (u G).get c := by
        intro G hG
        rw [Finset.mem_range, ← od_ld] at hG
        have hq1 : G / lastDim P.nx P.ny P.nz < otherDims P.nx P.ny P.nz := Nat.div_lt_of_lt_mul (by rw [Nat.mul_comm]; exact hG)
        rw [fillFftR_apply exR P.data.kpg p X buf b (ld_le P.nx P.ny P.nz) hq1 (Nat.mod_lt _ hlp) Nat.zero_lt_one hc, toC_get, hex,
          Nat.div_add_mod']
        rfl
      refine (Finset.sum_congr rfl this).trans ?_
      interval_cases c <;> rfl
    ext
    · exact hf 0 (by omega)
    · exact hf 1 (by omega)
    · exact hf 2 (by omega)
  · intro r hr
    rw [hc (opp P.nx P.ny P.nz r) (opp_lt hr), hc r hr, transform_opp hr]
    · ext <;> simp [conjV]
    · intro G _
      rw [hu]
      dsimp only [cband, castP]
      rw [← hex]
      simp [toC, V3.map, conjV]

theorem one_half {w : Fftw} {d : RData} {P : Problem} (hw : IsC2R ⟨P.nx, P.ny, P.nz⟩ w) (hd : Represents d P) {mu muh : ℕ → HMat}
    (hm : HalfStored ⟨P.nx, P.ny, P.nz⟩ mu muh) (hi : Inverted ⟨P.nx, P.ny, P.nz⟩ mu) (p b : ℕ) (H W0 buf : ℕ → ℝ) (W0' buf' : ℕ → ℂ) :
    ∀ G < P.data.N, band 1 (oneFromB P.data mu p (asComplex H) W0' buf' b) 0 G = cband 1 (oneFromBR w d muh p H W0 buf b) 0 G := by
  intro G hG
  have hN := N_eq hd
  rw [oneFromB_apply P.data mu p (asComplex H) W0' buf' b G hG, band_asComplex]
  have := (chainR_general t2cR_cast c2tR_cast hw hd hm hi (1 / (d.N : ℝ)) (p := p) (p' := 1) H buf W0 (start := b) (start' := 0) (num := 1)
    (by omega)).1 G (by rw [hN]; exact hG) 0 Nat.zero_lt_one
  rw [hN] at this
  refine Eq.trans ?_ this.symm |>.trans ?_
  · rfl
  · unfold oneFromBR
    rw [hN]
    rfl

section
variable {w : Fftw} {d : RData} {P : Problem}

theorem b_half (hd : Represents d P) (p b : ℕ) (H buf : ℕ → ℝ) (buf' : ℕ → ℂ) (Vol : ℝ) :
    HalfField P.nx P.ny P.nz (getBR d p H buf Vol b) (toReals (getB P.data p (asComplex H) buf' Vol b)) :=
  loaded_half t2cR_cast hd _ p p b b H buf (asComplex H) buf' fun _ _ => rfl

theorem h_half (hw : IsC2R ⟨P.nx, P.ny, P.nz⟩ w) (hd : Represents d P) (hs : Symmetric P) (p b : ℕ) (H W0 buf buf2 : ℕ → ℝ)
    (W0' buf' buf2' : ℕ → ℂ) (Vol : ℝ) :
    HalfField P.nx P.ny P.nz (getHR w d p H W0 buf buf2 Vol b) (toReals (getH P.data p (asComplex H) W0' buf' buf2' Vol b)) := by
  unfold getHR getH
  rcases hd.mu with ⟨m1, m2⟩ | ⟨mu, muh, m1, m2, hm⟩
  · rw [m2, show P.data.muInv = none from m1]
    exact loaded_half t2cR_cast hd _ p p b b H buf (asComplex H) buf' fun _ _ => rfl
  · rw [m2, show P.data.muInv = some mu from m1]
    exact loaded_half t2cR_cast hd _ 1 1 0 0 _ buf2 _ buf2' (one_half hw hd hm (hs.2 mu m1) p b H W0 buf W0' buf')

theorem d_half (hw : IsC2R ⟨P.nx, P.ny, P.nz⟩ w) (hd : Represents d P) (hs : Symmetric P) (p b : ℕ) (H W0 buf buf2 : ℕ → ℝ)
    (W0' buf' buf2' : ℕ → ℂ) (freqs : ℕ → ℝ) (Vol : ℝ) :
    HalfField P.nx P.ny P.nz (getDR w d p H W0 buf buf2 freqs Vol b)
      (toReals (getD P.data p (asComplex H) W0' buf' buf2' freqs Vol b)) := by
  unfold getDR getD
  rcases hd.mu with ⟨m1, m2⟩ | ⟨mu, muh, m1, m2, hm⟩
  · rw [m2, show P.data.muInv = none from m1]
    exact loaded_half crossT2cR_cast hd _ p p b b H buf (asComplex H) buf' fun _ _ => rfl
  · rw [m2, show P.data.muInv = some mu from m1]
    exact loaded_half crossT2cR_cast hd _ 1 1 0 0 _ buf2 _ buf2' (one_half hw hd hm (hs.2 mu m1) p b H W0 buf W0' buf')

/-- The stored half of a field, in coordinates. -/
theorem HalfField.stored (hN : 0 < d.N) (hd : Represents d P) {memR mem : ℕ → ℝ} (h : HalfField P.nx P.ny P.nz memR mem) :
    Stored d.shape (cvec memR) (fun x => cvec mem (address ⟨P.nx, P.ny, P.nz⟩ x.1 x.2.1 x.2.2)) := by
  intro x h1 h2 h3
  obtain ⟨a1, a2, -⟩ := addr_full hN h1 h2 h3
  rw [h.half _ (by rw [← hd.nx, ← hd.ny, ← hd.nz]; exact a1), ← hd.nx, ← hd.ny, ← hd.nz, a2]

/-- The value at the mirror point is the conjugate. -/
theorem HalfField.mirror (hd : Represents d P) {memR mem : ℕ → ℝ} (h : HalfField P.nx P.ny P.nz memR mem) {x : ℕ × ℕ × ℕ} (h1 : x.1 < P.nx)
    (h2 : x.2.1 < P.ny) (h3 : x.2.2 < P.nz) :
    cvec mem (address ⟨P.nx, P.ny, P.nz⟩ (d.shape.mirror x).1 (d.shape.mirror x).2.1 (d.shape.mirror x).2.2) =
      conjV (cvec mem (address ⟨P.nx, P.ny, P.nz⟩ x.1 x.2.1 x.2.2)) := by
  have hm := mirror_opposite (d := d) (p := x) (by rw [hd.nx]; exact h1) (by rw [hd.ny]; exact h2) (by rw [hd.nz]; exact h3)
  rw [hd.nx, hd.ny, hd.nz] at hm
  rw [hm]
  exact h.opp _ (rowMajor_lt (rowMajor_lt h1 h2) h3)

/-! ### Energies -/

theorem herm_conj_re (u v : V3 ℂ) : (herm (conjV u) (conjV v)).re = (herm u v).re := by
  simp [herm, conjV]

theorem compSqr_conj (u v : V3 ℂ) (c : Fin 6) : compSqr (conjV u) (conjV v) c = compSqr u v c := by
  fin_cases c <;> simp [compSqr, conjV]

/-- `compute-field-energy` on the stored half of a field. -/
theorem HalfField.energy (hN : 0 < d.N) (hd : Represents d P) {memR mem : ℕ → ℝ} (h : HalfField P.nx P.ny P.nz memR mem)
    {TR T : ℕ → V3 ℂ → V3 ℂ} (hT : ∀ q < fftOutputSize P.nx P.ny P.nz, ∀ v, TR q v = T (full P.nx P.ny P.nz q) v)
    (hTo : ∀ r < P.nx * P.ny * P.nz, ∀ v, T (RealBuild.opp P.nx P.ny P.nz r) (conjV v) = conjV (T r v)) (Vol : ℝ) :
    fieldEnergy TR (dblSerial d.shape) (fftOutputSize d.nx d.ny d.nz) d.N Vol memR =
      fieldEnergy T (fun _ => false) P.data.N P.data.N Vol mem := by
  have hNP := N_eq hd
  obtain ⟨hx, hy, hz⟩ := pos3 hN
  obtain ⟨hS, hP, hO⟩ := shape_ok hN
  set A : ℕ × ℕ × ℕ → ℕ := fun x => address ⟨P.nx, P.ny, P.nz⟩ x.1 x.2.1 x.2.2 with hA
  set E : ℕ × ℕ × ℕ → ℝ := fun x => (herm (cvec mem (A x)) (T (A x) (cvec mem (A x)))).re with hE
  set Q : Fin 6 → ℕ × ℕ × ℕ → ℝ := fun c x => compSqr (T (A x) (cvec mem (A x))) (cvec mem (A x)) c with hQ
  have hval : ∀ x : ℕ × ℕ × ℕ, x.1 < d.shape.dims.1 → x.2.1 < d.shape.dims.2.1 → x.2.2 < d.shape.dims.2.2 →
      cvec memR (addr d.shape x) = cvec mem (A x) ∧ ∀ v, TR (addr d.shape x) v = T (A x) v := by
    intro x h1 h2 h3
    obtain ⟨a1, a2, -⟩ := addr_full hN h1 h2 h3
    rw [hd.nx, hd.ny, hd.nz] at a1 a2
    exact ⟨by rw [h.half _ a1, a2], fun v => by rw [hT _ a1, a2]⟩
  have hmir : ∀ x : ℕ × ℕ × ℕ, x.1 < d.nx → x.2.1 < d.ny → x.2.2 < d.nz →
      cvec mem (A (d.shape.mirror x)) = conjV (cvec mem (A x)) ∧
        T (A (d.shape.mirror x)) (cvec mem (A (d.shape.mirror x))) = conjV (T (A x) (cvec mem (A x))) := by
    intro x h1 h2 h3
    have hm := mirror_opposite (d := d) (p := x) h1 h2 h3
    rw [hd.nx] at h1
    rw [hd.ny] at h2
    rw [hd.nz] at h3
    rw [hd.nx, hd.ny, hd.nz] at hm
    have hm' : A (d.shape.mirror x) = RealBuild.opp P.nx P.ny P.nz (A x) := hm
    have e := h.mirror hd h1 h2 h3
    refine ⟨e, ?_⟩
    have e' : cvec mem (A (d.shape.mirror x)) = conjV (cvec mem (A x)) := e
    rw [e', hm']
    exact hTo _ (rowMajor_lt (rowMajor_lt h1 h2) h3) _
  -- the inversion-symmetric build
  have r := C42_total hS hP TR memR d.N Vol E Q
    (fun x h1 h2 h3 => by
      obtain ⟨v1, v2⟩ := hval x h1 h2 h3
      show (herm (cvec memR (addr d.shape x)) (TR (addr d.shape x) (cvec memR (addr d.shape x)))).re = _
      rw [v1, v2])
    (fun _ x h1 h2 h3 => by
      obtain ⟨v1, v2⟩ := hmir x h1 h2 h3
      show (herm (cvec mem (A (d.shape.mirror x))) (T (A (d.shape.mirror x)) (cvec mem (A (d.shape.mirror x))))).re = _
      rw [v2, v1, herm_conj_re])
    (fun c x h1 h2 h3 => by
      obtain ⟨v1, v2⟩ := hval x h1 h2 h3
      show compSqr (TR (addr d.shape x) (cvec memR (addr d.shape x))) (cvec memR (addr d.shape x)) c = _
      rw [v1, v2])
    (fun c _ x h1 h2 h3 => by
      obtain ⟨v1, v2⟩ := hmir x h1 h2 h3
      show compSqr (T (A (d.shape.mirror x)) (cvec mem (A (d.shape.mirror x)))) (cvec mem (A (d.shape.mirror x))) c = _
      rw [v2, v1, compSqr_conj])
  rw [hO] at r
  -- the general build
  set S0 : Shape := ⟨d.nx, d.ny, d.nz, false, 0⟩ with hS0
  have hA0 : ∀ x, addr S0 x = A x := by
    intro x
    show (x.1 * d.ny + x.2.1) * d.nz + x.2.2 = (x.1 * P.ny + x.2.1) * P.nz + x.2.2
    rw [hd.ny, hd.nz]
  have g := C42_total (S := S0) ⟨hx, hy, hz, fun hc => by cases hc⟩ (fun hc => by cases hc) T mem P.data.N Vol E Q
    (fun x _ _ _ => by
      show (herm (cvec mem (addr S0 x)) (T (addr S0 x) (cvec mem (addr S0 x)))).re = _
      rw [hA0])
    (fun hc => by cases hc)
    (fun c x _ _ _ => by
      show compSqr (T (addr S0 x) (cvec mem (addr S0 x))) (cvec mem (addr S0 x)) c = _
      rw [hA0])
    (fun c hc => by cases hc)
  have hO0 : S0.outSize = P.data.N := hNP
  have hd0 : dblSerial S0 = fun _ => false := by
    funext i
    rfl
  rw [hO0, hd0] at g
  have hcs : ∀ f : ℕ × ℕ × ℕ → ℝ, cellSum S0 f = cellSum d.shape f := fun f => rfl
  refine Prod.ext ?_ (funext fun c => ?_)
  · rw [r.1, g.1, hcs, hNP]
  · rw [r.2.1 c, g.2.1 c, hcs, hcs]

theorem energyField_half (hd : Represents d P) (hs : Symmetric P) (ty : Char) :
    (∀ q < fftOutputSize P.nx P.ny P.nz, ∀ v, energyField ty d.epsInv d.muInv q v =
      energyField ty P.data.epsInv P.data.muInv (full P.nx P.ny P.nz q) v) ∧
    (∀ r < P.nx * P.ny * P.nz, ∀ v, energyField ty P.data.epsInv P.data.muInv (opp P.nx P.ny P.nz r) (conjV v) =
      conjV (energyField ty P.data.epsInv P.data.muInv r v)) := by
  have hpos : ∀ q < fftOutputSize P.nx P.ny P.nz, 0 < lastDim P.nx P.ny P.nz := by
    intro q hq
    rcases Nat.eq_zero_or_pos (P.nx * P.ny * P.nz) with h0 | h0
    · rw [fftOutputSize_eq, otherDims, h0, Nat.zero_div, Nat.zero_mul] at hq
      exact absurd hq (Nat.not_lt_zero _)
    · exact ld_pos h0
  have hoc : ∀ {M : ℕ → HMat}, Inverted ⟨P.nx, P.ny, P.nz⟩ M → ∀ r < P.nx * P.ny * P.nz, ∀ v,
      (M (opp P.nx P.ny P.nz r)).mulVec (conjV v) = conjV ((M r).mulVec v) := by
    intro M hM r hr v
    obtain ⟨x, hx, y, hy, z, hz, rfl⟩ := index3 hr
    have ho : opp P.nx P.ny P.nz ((x * P.ny + y) * P.nz + z) = opposite ⟨P.nx, P.ny, P.nz⟩ x y z := by
      unfold opp; rw [split_x _ hy hz, split_y _ hy hz, split_z _ hz]
    rw [ho]
    exact mulVec_conj (hM x hx y hy z hz) v
  unfold energyField
  have he : P.data.epsInv = P.epsInv := rfl
  rw [he]
  by_cases h1 : ty = 'd'
  · simp only [if_pos h1]
    exact ⟨fun q hq v => by rw [stored_apply hd.eps (hpos q hq) hq], hoc hs.1⟩
  · simp only [if_neg h1]
    by_cases h2 : ty = 'b'
    · simp only [if_pos h2]
      rcases hd.mu with ⟨m1, m2⟩ | ⟨mu, muh, m1, m2, hm⟩
      · rw [m2, show P.data.muInv = none from m1]
        exact ⟨fun _ _ _ => rfl, fun _ _ _ => rfl⟩
      · rw [m2, show P.data.muInv = some mu from m1]
        exact ⟨fun q hq v => by simp only; rw [stored_apply hm (hpos q hq) hq], hoc (hs.2 mu m1)⟩
    · simp only [if_neg h2]
      exact ⟨fun _ _ _ => trivial, fun _ _ _ => trivial⟩

/-! ### The properties -/

/-- C111 (fields).  After `get-bfield`, `get-hfield` or `get-dfield` for band `b` with the same (real) amplitudes: at every point it stores the
inversion-symmetric build has the vector the general build has at that point of the cell, and at the mirror point, which it does not store, the
general build has the conjugate.  Whatever the buffers contained. -/
theorem C111_fields (hw : IsC2R ⟨P.nx, P.ny, P.nz⟩ w) (hd : Represents d P) (hs : Symmetric P) (hN : 0 < d.N) (p b : ℕ)
    (H W0 buf buf2 : ℕ → ℝ) (W0' buf' buf2' : ℕ → ℂ) (freqs : ℕ → ℝ) (Vol : ℝ) (memR mem : ℕ → ℝ)
    (hf : (memR, mem) ∈ [(getBR d p H buf Vol b, toReals (getB P.data p (asComplex H) buf' Vol b)),
      (getHR w d p H W0 buf buf2 Vol b, toReals (getH P.data p (asComplex H) W0' buf' buf2' Vol b)),
      (getDR w d p H W0 buf buf2 freqs Vol b, toReals (getD P.data p (asComplex H) W0' buf' buf2' freqs Vol b))]) :
    Stored d.shape (cvec memR) (fun x => cvec mem (address ⟨P.nx, P.ny, P.nz⟩ x.1 x.2.1 x.2.2)) ∧
    ∀ x < P.nx, ∀ y < P.ny, ∀ z < P.nz,
      (cvec mem (opposite ⟨P.nx, P.ny, P.nz⟩ x y z)).x = conj (cvec mem (address ⟨P.nx, P.ny, P.nz⟩ x y z)).x ∧
      (cvec mem (opposite ⟨P.nx, P.ny, P.nz⟩ x y z)).y = conj (cvec mem (address ⟨P.nx, P.ny, P.nz⟩ x y z)).y ∧
      (cvec mem (opposite ⟨P.nx, P.ny, P.nz⟩ x y z)).z = conj (cvec mem (address ⟨P.nx, P.ny, P.nz⟩ x y z)).z := by
  have h : HalfField P.nx P.ny P.nz memR mem := by
    simp only [List.mem_cons, List.not_mem_nil, or_false, Prod.mk.injEq] at hf
    rcases hf with ⟨rfl, rfl⟩ | ⟨rfl, rfl⟩ | ⟨rfl, rfl⟩
    · exact b_half hd p b H buf buf' Vol
    · exact h_half hw hd hs p b H W0 buf buf2 W0' buf' buf2' Vol
    · exact d_half hw hd hs p b H W0 buf buf2 W0' buf' buf2' freqs Vol
  refine ⟨h.stored hN hd, fun x hx y hy z hz => ?_⟩
  have ho : opp P.nx P.ny P.nz (address ⟨P.nx, P.ny, P.nz⟩ x y z) = opposite ⟨P.nx, P.ny, P.nz⟩ x y z := by
    have e : address ⟨P.nx, P.ny, P.nz⟩ x y z = (x * P.ny + y) * P.nz + z := rfl
    unfold opp; rw [e, split_x _ hy hz, split_y _ hy hz, split_z _ hz]
  have := h.opp (address ⟨P.nx, P.ny, P.nz⟩ x y z) (rowMajor_lt (rowMajor_lt hx hy) hz)
  rw [ho] at this
  rw [this]
  exact ⟨rfl, rfl, rfl⟩

/-- C111 (energies).  `compute-field-energy` after loading the B, H or D field of band `b` returns the same list (total and fractions of the six
components) in the two builds. -/
theorem C111_energy (hw : IsC2R ⟨P.nx, P.ny, P.nz⟩ w) (hd : Represents d P) (hs : Symmetric P) (hN : 0 < d.N) (p b : ℕ)
    (H W0 buf buf2 : ℕ → ℝ) (W0' buf' buf2' : ℕ → ℂ) (freqs : ℕ → ℝ) (Vol : ℝ) :
    fieldEnergy (energyField 'b' d.epsInv d.muInv) (dblSerial d.shape) (fftOutputSize d.nx d.ny d.nz) d.N Vol (getBR d p H buf Vol b) =
      fieldEnergy (energyField 'b' P.epsInv P.muInv) (fun _ => false) P.data.N P.data.N Vol (toReals (getB P.data p (asComplex H) buf' Vol b)) ∧
    fieldEnergy (energyField 'h' d.epsInv d.muInv) (dblSerial d.shape) (fftOutputSize d.nx d.ny d.nz) d.N Vol (getHR w d p H W0 buf buf2 Vol b) =
      fieldEnergy (energyField 'h' P.epsInv P.muInv) (fun _ => false) P.data.N P.data.N Vol
        (toReals (getH P.data p (asComplex H) W0' buf' buf2' Vol b)) ∧
    fieldEnergy (energyField 'd' d.epsInv d.muInv) (dblSerial d.shape) (fftOutputSize d.nx d.ny d.nz) d.N Vol
        (getDR w d p H W0 buf buf2 freqs Vol b) =
      fieldEnergy (energyField 'd' P.epsInv P.muInv) (fun _ => false) P.data.N P.data.N Vol
        (toReals (getD P.data p (asComplex H) W0' buf' buf2' freqs Vol b)) := by
  have e := fun ty => energyField_half hd hs ty
  exact ⟨(b_half hd p b H buf buf' Vol).energy hN hd (e 'b').1 (e 'b').2 Vol,
    (h_half hw hd hs p b H W0 buf buf2 W0' buf' buf2' Vol).energy hN hd (e 'h').1 (e 'h').2 Vol,
    (d_half hw hd hs p b H W0 buf buf2 W0' buf' buf2' freqs Vol).energy hN hd (e 'd').1 (e 'd').2 Vol⟩

/-! ### Normalisation -/

theorem data_parseval (P : Problem) : Parseval P.data := by
  intro G hG G' hG'
  rw [← data_inverse P G hG G' hG']
  refine Finset.sum_congr rfl fun r hr => ?_
  rw [data_adjoint P G hG r (Finset.mem_range.1 hr)]

theorem sum_pairs (f : ℕ → ℝ) (n : ℕ) : ∑ a ∈ Finset.range (n * 2), f a = ∑ G ∈ Finset.range n, (f (G * 2 + 0) + f (G * 2 + 1)) := by
  induction n with
  | zero => rfl
  | succ n ih =>
    rw [show (n + 1) * 2 = n * 2 + 1 + 1 by ring, Finset.sum_range_succ, Finset.sum_range_succ, Finset.sum_range_succ, ih]
    exact add_assoc _ _ _

theorem eigenBand_of (hw : IsC2R ⟨P.nx, P.ny, P.nz⟩ w) (hd : Represents d P) (hs : Symmetric P) {p b : ℕ} {H : ℕ → ℝ} {lam : ℝ}
    (h : NormalisedModeR w d p H b lam) : EigenBand P.data (band p (asComplex H) b) lam := by
  obtain ⟨hb, h⟩ := h
  have hNP := N_eq hd
  obtain ⟨R, B, e1, e2, e3, e4⟩ := h (fun _ _ => 0) (fun _ _ => 0) (fun _ => 0) (fun _ => 0)
  have hn : 0 < d.nfb := by
    rcases Nat.eq_zero_or_pos d.nfb with h0 | h0
    · unfold maxwellOperatorR at e1
      rw [if_pos ⟨h0, by omega⟩] at e1
      cases e1
    · exact h0
  obtain ⟨R', f1, g1, -⟩ := operatorR_bands hw hd hs hn p (fun _ _ => 0) H (fun _ => 0)
  obtain ⟨B', f2, g2, -⟩ := muinvR_bands hw hd hs hn p (fun _ _ => 0) H (fun _ => 0)
  obtain rfl : R' = R := Option.some.inj (f1.symm.trans e1)
  obtain rfl : B' = B := Option.some.inj (f2.symm.trans e2)
  have hB : ∀ G < P.data.N, bandMuinv P.data (band p (asComplex H) b) G =
      (((B' ((G * 2 + 0) * p + b) : ℝ) : ℂ), ((B' ((G * 2 + 1) * p + b) : ℝ) : ℂ)) := by
    intro G hG
    rw [band_asComplex, ← g2 b hb G (by rw [hNP]; exact hG)]
    rfl
  constructor
  · intro G hG
    rw [hB G hG, band_asComplex, ← g1 b hb G (by rw [hNP]; exact hG)]
    have r0 := e3 (G * 2 + 0) (by rw [hNP]; omega)
    have r1 := e3 (G * 2 + 1) (by rw [hNP]; omega)
    refine Prod.ext ?_ ?_
    · show ((R' ((G * 2 + 0) * p + b) : ℝ) : ℂ) = _
      rw [r0]; push_cast; rfl
    · show ((R' ((G * 2 + 1) * p + b) : ℝ) : ℂ) = _
      rw [r1]; push_cast; rfl
  · unfold Maxwell.Spec.inner
    rw [sum_pairs, hNP] at e4
    rw [← Complex.ofReal_one, ← e4, Complex.ofReal_sum]
    refine Finset.sum_congr rfl fun G hG => ?_
    rw [hB G (Finset.mem_range.1 hG)]
    unfold hermT
    show conj ((H ((G * 2 + 0) * p + b) : ℝ) : ℂ) * _ + conj ((H ((G * 2 + 1) * p + b) : ℝ) : ℂ) * _ = _
    rw [Complex.conj_ofReal, Complex.conj_ofReal]
    push_cast
    rfl

/-- **C47** (inversion-symmetric build, B).  For every normalised mode of `mpbi` the B field returned by `get-bfield` has unit total magnetic
energy, with or without a permeability. -/
theorem C47_inversion_b (hw : IsC2R ⟨P.nx, P.ny, P.nz⟩ w) (hd : Represents d P) (hs : Symmetric P) (hN : 0 < d.N) (p b : ℕ) (H buf : ℕ → ℝ)
    (lam Vol : ℝ) (hV : 0 < Vol) (h : NormalisedModeR w d p H b lam) :
    (fieldEnergy (energyField 'b' d.epsInv d.muInv) (dblSerial d.shape) (fftOutputSize d.nx d.ny d.nz) d.N Vol (getBR d p H buf Vol b)).1 = 1 := by
  obtain ⟨K, hK, -⟩ := data_isBasis P
  rw [(C111_energy hw hd hs hN p b H buf buf buf (fun _ => 0) (fun _ => 0) (fun _ => 0) (fun _ => 0) Vol).1]
  exact C47_b P.data (by rw [← N_eq hd]; exact hN) (data_adjoint P) (data_parseval P) K hK p (asComplex H) (fun _ => 0) b lam Vol hV
    (eigenBand_of hw hd hs h)

/-- **C47** (inversion-symmetric build, H without permeability). -/
theorem C47_inversion_h (hw : IsC2R ⟨P.nx, P.ny, P.nz⟩ w) (hd : Represents d P) (hs : Symmetric P) (hN : 0 < d.N) (p b : ℕ)
    (H W0 buf buf2 : ℕ → ℝ) (lam Vol : ℝ) (hV : 0 < Vol) (h : NormalisedModeR w d p H b lam) (hmu : d.muInv = none) :
    (fieldEnergy (energyField 'h' d.epsInv d.muInv) (dblSerial d.shape) (fftOutputSize d.nx d.ny d.nz) d.N Vol
      (getHR w d p H W0 buf buf2 Vol b)).1 = 1 := by
  obtain ⟨K, hK, -⟩ := data_isBasis P
  rw [(C111_energy hw hd hs hN p b H W0 buf buf2 (fun _ => 0) (fun _ => 0) (fun _ => 0) (fun _ => 0) Vol).2.1]
  refine C47_h P.data (by rw [← N_eq hd]; exact hN) (data_parseval P) K hK p (asComplex H) (fun _ => 0) (fun _ => 0) (fun _ => 0) b lam Vol hV
    (eigenBand_of hw hd hs h) ?_
  rcases hd.mu with ⟨m1, -⟩ | ⟨mu, muh, -, m2, -⟩
  · exact m1
  · rw [m2] at hmu; cases hmu

/-- **C47** (inversion-symmetric build, D).  For every normalised mode of `mpbi` of squared frequency `lam > 0` the D field returned by
`get-dfield` has unit total electric energy, with or without a permeability.  (Missing, as in `C47_d_partial`: zero frequency, where the
scale is arbitrary; the negative-epsilon mode, where it is false.) -/
theorem C47_inversion_d_partial (hw : IsC2R ⟨P.nx, P.ny, P.nz⟩ w) (hd : Represents d P) (hs : Symmetric P) (hN : 0 < d.N) (p b : ℕ)
    (H W0 buf buf2 : ℕ → ℝ) (freqs : ℕ → ℝ) (lam Vol : ℝ) (hV : 0 < Vol) (h : NormalisedModeR w d p H b lam) (hl : 0 < lam)
    (hf : freqs b = storedFreq false lam) :
    (fieldEnergy (energyField 'd' d.epsInv d.muInv) (dblSerial d.shape) (fftOutputSize d.nx d.ny d.nz) d.N Vol
      (getDR w d p H W0 buf buf2 freqs Vol b)).1 = 1 := by
  obtain ⟨K, hK, -⟩ := data_isBasis P
  rw [(C111_energy hw hd hs hN p b H W0 buf buf2 (fun _ => 0) (fun _ => 0) (fun _ => 0) freqs Vol).2.2]
  exact C47_d_partial P.data (by rw [← N_eq hd]; exact hN) (data_adjoint P) K hK p (asComplex H) (fun _ => 0) (fun _ => 0) (fun _ => 0) freqs b
    lam Vol hV (eigenBand_of hw hd hs h) hl hf

end

/-! ### An example -/

/-- Glass (`ε = 4`) on 4 × 3 × 2 points, `k = (1/2, 0, 0)`. -/
noncomputable def exGlass : Problem :=
  ⟨4, 3, 2, 1, ⟨⟨1, 0, 0⟩, ⟨0, 1, 0⟩, ⟨0, 0, 1⟩⟩, ⟨1 / 2, 0, 0⟩, fun _ => ⟨1 / 4, 1 / 4, 1 / 4, 0, 0, 0⟩, none⟩

noncomputable def exGlassR : RData := ⟨4, 3, 2, 1, exGlass.data.kpg, fun _ => ⟨1 / 4, 1 / 4, 1 / 4, 0, 0, 0⟩, none⟩

theorem exGlass_ok : Represents exGlassR exGlass ∧ Symmetric exGlass ∧ IsC2R ⟨exGlass.nx, exGlass.ny, exGlass.nz⟩ (refFftw 4 3 2 fun _ a => a) := by
  refine ⟨⟨rfl, rfl, rfl, rfl, rfl, ?_, Or.inl ⟨rfl, rfl⟩⟩, ⟨?_, fun f hf => by cases hf⟩, refFftw_isC2R 4 3 2 _⟩
  · show if (2 : ℕ) = 1 then _ else ∀ x < 4, ∀ y < 3, ∀ z ≤ 2 / 2, z < 2 → exGlassR.epsInv _ = exGlass.epsInv _
    rw [if_neg (by decide)]
    intros
    rfl
  · intro x _ y _ z _
    show Conjugate (⟨1 / 4, 1 / 4, 1 / 4, 0, 0, 0⟩ : HMat) ⟨1 / 4, 1 / 4, 1 / 4, 0, 0, 0⟩
    unfold Conjugate Tensor.Spec.toMatrix
    ext i j
    fin_cases i <;> fin_cases j <;> simp [map_ofNat]

/-- A plane wave in it. -/
theorem exGlass_mode : NormalisedModeR (refFftw 4 3 2 fun _ a => a) exGlassR 1 (fun a => if a = 0 then 1 else 0) 0 (1 / 16) := by
  obtain ⟨hd, hs, hw⟩ := exGlass_ok
  have hm := homogeneous_mode exGlass (by show 0 < 1; norm_num) rfl (e := 1 / 4) (fun r => by
    show (⟨1 / 4, 1 / 4, 1 / 4, 0, 0, 0⟩ : HMat) = _; rfl) (x := 0) (y := 0) (z := 0) (by show 0 < 4; norm_num) (by show 0 < 3; norm_num)
    (by show 0 < 2; norm_num)
  have hl : 1 / 4 * V3.dot (exGlass.wave 0 0 0) (exGlass.wave 0 0 0) = 1 / 16 := by
    unfold Problem.wave
    rw [latticeGm_eq]
    simp [exGlass, waveVec, harm, V3.dot, V3.cross, V3.smul, M3.det]
    norm_num
  rw [hl] at hm
  have hr : IsModeR (refFftw 4 3 2 fun _ a => a) exGlassR (1 / 16) (fun a => if a = 0 then 1 else 0) := by
    rw [C111_modes hw hd hs]
    convert hm using 1
    funext a
    unfold asComplex
    by_cases ha : a = 0 <;> simp [ha]
  refine ⟨Nat.zero_lt_one, fun bufs bufs' Y Y' => ?_⟩
  obtain ⟨R, B, e1, e2, e3⟩ := hr.2 bufs bufs' Y Y'
  refine ⟨R, B, e1, e2, fun a ha => by simpa using e3 a ha, ?_⟩
  obtain ⟨B', f2, g2, -⟩ := muinvR_bands hw hd hs (show 0 < 1 by norm_num) 1 bufs' (fun a => if a = 0 then 1 else 0) Y'
  obtain rfl : B' = B := Option.some.inj (f2.symm.trans e2)
  have hB : B' 0 = 1 := by
    have := congrArg Prod.fst (g2 0 Nat.zero_lt_one 0 (by show 0 < 4 * 3 * 2; norm_num))
    have h2 : ((B' 0 : ℝ) : ℂ) = (((if (0 : ℕ) = 0 then 1 else 0 : ℝ)) : ℂ) := this
    rw [if_pos rfl] at h2
    exact_mod_cast h2
  rw [Finset.sum_eq_single_of_mem 0 (Finset.mem_range.2 (by show 0 < 4 * 3 * 2 * 2; norm_num))]
  · simp [hB]
  · intro a _ ha
    simp [ha]

example (buf W0 buf2 : ℕ → ℝ) : (fieldEnergy (energyField 'd' exGlassR.epsInv exGlassR.muInv) (dblSerial exGlassR.shape) 24 24 3
    (getDR (refFftw 4 3 2 fun _ a => a) exGlassR 1 (fun a => if a = 0 then 1 else 0) W0 buf buf2 (fun _ => 1 / 4) 3 0)).1 = 1 :=
  C47_inversion_d_partial exGlass_ok.2.2 exGlass_ok.1 exGlass_ok.2.1 (by show 0 < 4 * 3 * 2; norm_num) 1 0 _ W0 buf buf2 (fun _ => 1 / 4) (1 / 16) 3
    (by norm_num) exGlass_mode (by norm_num) (by
      show (1 / 4 : ℝ) = Real.sqrt (1 / 16)
      rw [show (1 / 16 : ℝ) = (1 / 4) ^ 2 by norm_num, Real.sqrt_sq (by norm_num)])

end Mpb.RealBuild

import Verif.RealBuild.ElectricModel
import Verif.RealBuild.FieldProps
import Verif.Flux.Model

/-! # Property C111 for `get-efield` -/

namespace Mpb.RealBuild
open Mpb.Maxwell Mpb.Field Mpb.Flux Mpb.Invariance Mpb.RealBuild.Spec Mpb.Invariance.Spec
open scoped ComplexConjugate

variable {w : Fftw} {d : RData} {P : Problem}

theorem cvec_eFromDR {n : ℕ} (M : ℕ → HMat) (F : ℕ → ℝ) {r : ℕ} (hr : r < n) : cvec (eFromDR n 1 M F) r = (M r).mulVec (cvec F r) := by
  have h := fun c hc => eFromDR_apply M F hr Nat.zero_lt_one c hc
  have e : r * 1 + 0 = r := by omega
  rw [e] at h
  have h0 := h 0 (by omega)
  have h1 := h 1 (by omega)
  have h2 := h 2 (by omega)
  unfold cvec
  rw [← Nat.add_zero (3 * r), h0, Nat.add_zero, h1, h2]
  rfl

theorem cvec_eFromD {n : ℕ} (M : ℕ → HMat) (F : ℕ → ℂ) {r : ℕ} (hr : r < n) : cvec (toReals (eFromD n 1 M F)) r = (M r).mulVec (cvec (toReals F) r) := by
  have h := fun c hc => eFromD_apply M F hr Nat.zero_lt_one c hc
  have e : r * 1 + 0 = r := by omega
  rw [e] at h
  have h0 := h 0 (by omega)
  have h1 := h 1 (by omega)
  have h2 := h 2 (by omega)
  rw [cvec_toReals, cvec_toReals, ← Nat.add_zero (3 * r), h0, Nat.add_zero, h1, h2]
  rfl

theorem e_half (hw : IsC2R ⟨P.nx, P.ny, P.nz⟩ w) (hd : Represents d P) (hs : Symmetric P) (p b : ℕ) (H W0 buf buf2 : ℕ → ℝ)
    (W0' buf' buf2' : ℕ → ℂ) (freqs : ℕ → ℝ) (Vol : ℝ) :
    HalfField P.nx P.ny P.nz (getER w d p H W0 buf buf2 freqs Vol b) (toReals (getE P.data p (asComplex H) W0' buf' buf2' freqs Vol b)) := by
  obtain ⟨e1, e2⟩ := energyField_half hd hs 'd'
  have hD := d_half hw hd hs p b H W0 buf buf2 W0' buf' buf2' freqs Vol
  simp only [energyField, if_true] at e1 e2
  have hN : P.data.N = P.nx * P.ny * P.nz := rfl
  refine ⟨fun q hq => ?_, fun r hr => ?_⟩
  · have hl : 0 < lastDim P.nx P.ny P.nz := by
      rcases Nat.eq_zero_or_pos (P.nx * P.ny * P.nz) with h0 | h0
      · rw [fftOutputSize_eq, otherDims, h0, Nat.zero_div, Nat.zero_mul] at hq
        exact absurd hq (Nat.not_lt_zero _)
      · exact ld_pos h0
    rw [getER, getE, cvec_eFromDR _ _ (by rw [hd.nx, hd.ny, hd.nz]; exact hq), cvec_eFromD _ _ (by rw [hN]; exact full_lt hl hq), hD.half q hq, e1 q hq]
  · rw [getE, cvec_eFromD _ _ (by rw [hN]; exact opp_lt hr), cvec_eFromD _ _ (by rw [hN]; exact hr), hD.opp r hr, e2 r hr]

/-- **C111** (E field).  After `get-efield` for band `b` with the same (real) amplitudes: at every point it stores the inversion-symmetric build has
the vector the general build has at that point of the cell, and at the mirror point, which it does not store, the general build has the
conjugate.  Whatever the buffers contained. -/
theorem C111_efield (hw : IsC2R ⟨P.nx, P.ny, P.nz⟩ w) (hd : Represents d P) (hs : Symmetric P) (hN : 0 < d.N) (p b : ℕ)
    (H W0 buf buf2 : ℕ → ℝ) (W0' buf' buf2' : ℕ → ℂ) (freqs : ℕ → ℝ) (Vol : ℝ) (memR mem : ℕ → ℝ)
    (hR : memR = getER w d p H W0 buf buf2 freqs Vol b) (hC : mem = toReals (getE P.data p (asComplex H) W0' buf' buf2' freqs Vol b)) :
    Stored d.shape (cvec memR) (fun x => cvec mem (address ⟨P.nx, P.ny, P.nz⟩ x.1 x.2.1 x.2.2)) ∧
    ∀ x < P.nx, ∀ y < P.ny, ∀ z < P.nz,
      (cvec mem (opposite ⟨P.nx, P.ny, P.nz⟩ x y z)).x = conj (cvec mem (address ⟨P.nx, P.ny, P.nz⟩ x y z)).x ∧
      (cvec mem (opposite ⟨P.nx, P.ny, P.nz⟩ x y z)).y = conj (cvec mem (address ⟨P.nx, P.ny, P.nz⟩ x y z)).y ∧
      (cvec mem (opposite ⟨P.nx, P.ny, P.nz⟩ x y z)).z = conj (cvec mem (address ⟨P.nx, P.ny, P.nz⟩ x y z)).z := by
  subst hR hC
  have h := e_half hw hd hs p b H W0 buf buf2 W0' buf' buf2' freqs Vol
  refine ⟨h.stored hN hd, fun x hx y hy z hz => ?_⟩
  have ho : opp P.nx P.ny P.nz (address ⟨P.nx, P.ny, P.nz⟩ x y z) = opposite ⟨P.nx, P.ny, P.nz⟩ x y z := by
    have e : address ⟨P.nx, P.ny, P.nz⟩ x y z = (x * P.ny + y) * P.nz + z := rfl
    unfold opp; rw [e, split_x _ hy hz, split_y _ hy hz, split_z _ hz]
  have := h.opp (address ⟨P.nx, P.ny, P.nz⟩ x y z) (rowMajor_lt (rowMajor_lt hx hy) hz)
  rw [ho] at this
  rw [this]
  exact ⟨rfl, rfl, rfl⟩

/-- **C111** (squared fields).  `compute-field-squared` after loading the E field of band `b` returns the same list in the two builds. -/
theorem C111_efield_squared (hw : IsC2R ⟨P.nx, P.ny, P.nz⟩ w) (hd : Represents d P) (hs : Symmetric P) (hN : 0 < d.N) (p b : ℕ)
    (H W0 buf buf2 : ℕ → ℝ) (W0' buf' buf2' : ℕ → ℂ) (freqs : ℕ → ℝ) (Vol : ℝ) :
    fieldEnergy (energyField 'c' d.epsInv d.muInv) (dblSerial d.shape) (fftOutputSize d.nx d.ny d.nz) d.N Vol (getER w d p H W0 buf buf2 freqs Vol b) =
      fieldEnergy (energyField 'c' P.epsInv P.muInv) (fun _ => false) P.data.N P.data.N Vol
        (toReals (getE P.data p (asComplex H) W0' buf' buf2' freqs Vol b)) := by
  obtain ⟨e1, e2⟩ := energyField_half hd hs 'c'
  exact (e_half hw hd hs p b H W0 buf buf2 W0' buf' buf2' freqs Vol).energy hN hd e1 e2 Vol

/-- The hypotheses hold for the glass cell of `FieldProps`. -/
example (buf W0 buf2 : ℕ → ℝ) (W0' buf' buf2' : ℕ → ℂ) :=
  C111_efield_squared exGlass_ok.2.2 exGlass_ok.1 exGlass_ok.2.1 (by show 0 < 4 * 3 * 2; norm_num) 1 0 (fun a => if a = 0 then 1 else 0) W0 buf buf2 W0' buf'
    buf2' (fun _ => 1 / 4) 3

end Mpb.RealBuild

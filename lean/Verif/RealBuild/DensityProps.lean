import Verif.RealBuild.ElectricProps
import Verif.Field.EnergyProps

/-! # Property C111 for the densities that `compute-field-energy` leaves -/

namespace Mpb.RealBuild
open Mpb.Maxwell Mpb.Field Mpb.Flux Mpb.Invariance Mpb.RealBuild.Spec Mpb.Invariance.Spec

variable {w : Fftw} {d : RData} {P : Problem}

theorem HalfField.density (hN : 0 < d.N) (hd : Represents d P) (hs : Symmetric P) (ty : Char) {memR mem : ℕ → ℝ}
    (h : HalfField P.nx P.ny P.nz memR mem) :
    Stored d.shape (energyLoop (energyField ty d.epsInv d.muInv) (dblSerial d.shape) (fftOutputSize d.nx d.ny d.nz) memR).mem
      (fun x => (energyLoop (energyField ty P.epsInv P.muInv) (fun _ => false) P.data.N mem).mem (address ⟨P.nx, P.ny, P.nz⟩ x.1 x.2.1 x.2.2)) ∧
    ∀ x < P.nx, ∀ y < P.ny, ∀ z < P.nz,
      (energyLoop (energyField ty P.epsInv P.muInv) (fun _ => false) P.data.N mem).mem (opposite ⟨P.nx, P.ny, P.nz⟩ x y z) =
        (energyLoop (energyField ty P.epsInv P.muInv) (fun _ => false) P.data.N mem).mem (address ⟨P.nx, P.ny, P.nz⟩ x y z) := by
  obtain ⟨e1, e2⟩ := energyField_half hd hs ty
  have c := (C42_in_place (energyField ty P.epsInv P.muInv) (fun _ => false) P.data.N mem).1
  constructor
  · intro x h1 h2 h3
    obtain ⟨a1, a2, a3⟩ := addr_full hN h1 h2 h3
    have hl : 0 < lastDim P.nx P.ny P.nz := by
      rw [← hd.nx, ← hd.ny, ← hd.nz]; exact ld_pos hN
    rw [(C42_in_place _ _ _ _).1 _ a1]
    rw [hd.nx, hd.ny, hd.nz] at a1 a2
    have hlt := full_lt hl a1
    simp only
    rw [h.half _ a1, e1 _ a1]
    rw [a2] at hlt ⊢
    rw [c _ hlt]
    rfl
  · intro x hx y hy z hz
    have ho : RealBuild.opp P.nx P.ny P.nz (address ⟨P.nx, P.ny, P.nz⟩ x y z) = opposite ⟨P.nx, P.ny, P.nz⟩ x y z := by
      have e : address ⟨P.nx, P.ny, P.nz⟩ x y z = (x * P.ny + y) * P.nz + z := rfl
      unfold RealBuild.opp; rw [e, split_x _ hy hz, split_y _ hy hz, split_z _ hz]
    have hlt : address ⟨P.nx, P.ny, P.nz⟩ x y z < P.nx * P.ny * P.nz := rowMajor_lt (rowMajor_lt hx hy) hz
    have g := e2 _ hlt (cvec mem (address ⟨P.nx, P.ny, P.nz⟩ x y z))
    have g' := h.opp _ hlt
    have o := opp_lt hlt
    rw [ho] at g g' o
    rw [c _ o, c _ hlt, g', show energyField ty P.epsInv P.muInv _ _ = _ from g]
    exact herm_conj_re _ _

/-- **C111** (energy densities).  The real field that `compute-field-energy` leaves after loading the D or B field of band `b`, and
`compute-field-squared` after the H or E field: at every point it stores the inversion-symmetric build has the number the general build has at
that point of the cell, and at the mirror point, which it does not store, the general build has the same number. -/
theorem C111_density (hw : IsC2R ⟨P.nx, P.ny, P.nz⟩ w) (hd : Represents d P) (hs : Symmetric P) (hN : 0 < d.N) (p b : ℕ)
    (H W0 buf buf2 : ℕ → ℝ) (W0' buf' buf2' : ℕ → ℂ) (freqs : ℕ → ℝ) (Vol : ℝ) (ty : Char) (memR mem : ℕ → ℝ)
    (hf : (ty, memR, mem) ∈ [('d', getDR w d p H W0 buf buf2 freqs Vol b, toReals (getD P.data p (asComplex H) W0' buf' buf2' freqs Vol b)),
      ('b', getBR d p H buf Vol b, toReals (getB P.data p (asComplex H) buf' Vol b)),
      ('c', getHR w d p H W0 buf buf2 Vol b, toReals (getH P.data p (asComplex H) W0' buf' buf2' Vol b)),
      ('c', getER w d p H W0 buf buf2 freqs Vol b, toReals (getE P.data p (asComplex H) W0' buf' buf2' freqs Vol b))])
    (eR e : ℕ → ℝ) (heR : eR = (energyLoop (energyField ty d.epsInv d.muInv) (dblSerial d.shape) (fftOutputSize d.nx d.ny d.nz) memR).mem)
    (he : e = (energyLoop (energyField ty P.epsInv P.muInv) (fun _ => false) P.data.N mem).mem) :
    Stored d.shape eR (fun x => e (address ⟨P.nx, P.ny, P.nz⟩ x.1 x.2.1 x.2.2)) ∧
    ∀ x < P.nx, ∀ y < P.ny, ∀ z < P.nz, e (opposite ⟨P.nx, P.ny, P.nz⟩ x y z) = e (address ⟨P.nx, P.ny, P.nz⟩ x y z) := by
  subst heR he
  have h : HalfField P.nx P.ny P.nz memR mem := by
    simp only [List.mem_cons, List.not_mem_nil, or_false, Prod.mk.injEq] at hf
    rcases hf with ⟨-, rfl, rfl⟩ | ⟨-, rfl, rfl⟩ | ⟨-, rfl, rfl⟩ | ⟨-, rfl, rfl⟩
    · exact d_half hw hd hs p b H W0 buf buf2 W0' buf' buf2' freqs Vol
    · exact b_half hd p b H buf buf' Vol
    · exact h_half hw hd hs p b H W0 buf buf2 W0' buf' buf2' Vol
    · exact e_half hw hd hs p b H W0 buf buf2 W0' buf' buf2' freqs Vol
  exact h.density hN hd hs ty

/-- The hypotheses hold for the glass cell of `FieldProps`. -/
example (buf W0 buf2 : ℕ → ℝ) (W0' buf' buf2' : ℕ → ℂ) :=
  C111_density exGlass_ok.2.2 exGlass_ok.1 exGlass_ok.2.1 (by show 0 < 4 * 3 * 2; norm_num) 1 0 (fun a => if a = 0 then 1 else 0) W0 buf buf2 W0' buf'
    buf2' (fun _ => 1 / 4) 3 'b' _ _ (by simp only [List.mem_cons]; exact Or.inr (Or.inl rfl)) _ _ rfl rfl

end Mpb.RealBuild

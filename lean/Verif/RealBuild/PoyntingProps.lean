import Verif.RealBuild.ElectricProps
import Verif.Flux.Props

/-! # Property C111 for `get-poynting` -/

namespace Mpb.RealBuild
open Mpb.Maxwell Mpb.Field Mpb.Flux Mpb.Flux.Spec Mpb.Objects Mpb.Invariance Mpb.RealBuild.Spec Mpb.Invariance.Spec
open scoped ComplexConjugate

variable {w : Fftw} {d : RData} {P : Problem}

/-- The reals of an array, in pairs. -/
noncomputable def pairs (F : ℕ → ℝ) : ℕ → ℂ := fun j => ⟨F (2 * j), F (2 * j + 1)⟩

theorem toReals_pairs (F : ℕ → ℝ) : toReals (pairs F) = F := by
  funext a
  unfold toReals pairs
  rcases Nat.even_or_odd' a with ⟨k, rfl | rfl⟩
  · rw [if_pos (by omega), Nat.mul_div_cancel_left _ Nat.two_pos]
  · rw [if_neg (by omega), (by omega : (2 * k + 1) / 2 = k)]

theorem cvec_pairs (F : ℕ → ℝ) (i : ℕ) : at3 (pairs F) i = cvec F i := by
  rw [← cvec_at3, toReals_pairs]

theorem fluxVec_conj (e h : V3 ℂ) : fluxVec (conjV e) (conjV h) = conjV (fluxVec e h) := by
  simp [fluxVec, conjV]

/-- **C111** (energy flux).  `get-poynting` for band `b`, after any history of a session of the inversion-symmetric build on the same grid and
with the same (real) amplitudes: at every point it stores the current field is the vector `E* × H` of the general build at that point
of the cell (`C109_poynting` is the same about the general build), and at the mirror point, which it does not store, the general build has the
conjugate vector, so the same real part.  Field variables of the session keep their values. -/
theorem C111_poynting (hw : IsC2R ⟨P.nx, P.ny, P.nz⟩ w) (hd : Represents d P) (hs : Symmetric P) (hN : 0 < d.N) (p b : ℕ)
    (H W0 buf buf2 W1 buf3 buf4 : ℕ → ℝ) (W0' buf' buf2' W1' buf3' buf4' : ℕ → ℂ) (freqs : ℕ → ℝ) (Vol : ℝ) (E' H' : ℕ → ℂ)
    (hE : E' = getE P.data p (asComplex H) W0' buf' buf2' freqs Vol b) (hH : H' = getH P.data p (asComplex H) W1' buf3' buf4' Vol b)
    (cs : List Cmd) (hc : AllowedRun Objects.Spec.start cs) (dims : Dims) (hdims : (Objects.Spec.start.run cs).1.sys = some dims)
    (hsize : dims.N = fftOutputSize d.nx d.ny d.nz) :
    (∃ t rs t', run start cs = some (t, rs) ∧
      run t (poyntingCmds t.objs.length (getDR w d p H W0 buf buf2 freqs Vol b) (getER w d p H W0 buf buf2 freqs Vol b)
        (getHR w d p H W1 buf3 buf4 Vol b)) = some (t', [.ok, .ok, .field t.objs.length, .ok, .ok, .ok, .ok]) ∧
      Stored d.shape (fun q => (get .cur q t').map Prod.snd) (fun x => some (.item 'v' (.v
        (fluxVec (at3 E' (address ⟨P.nx, P.ny, P.nz⟩ x.1 x.2.1 x.2.2)) (at3 H' (address ⟨P.nx, P.ny, P.nz⟩ x.1 x.2.1 x.2.2)))))) ∧
      ∀ j < t.objs.length, ∀ i, (get (.obj j) i t').map Prod.snd = (get (.obj j) i t).map Prod.snd) ∧
    ∀ x < P.nx, ∀ y < P.ny, ∀ z < P.nz, ∀ u : V3 ℝ,
      along u (fluxVec (at3 E' (opposite ⟨P.nx, P.ny, P.nz⟩ x y z)) (at3 H' (opposite ⟨P.nx, P.ny, P.nz⟩ x y z))) =
        along u (fluxVec (at3 E' (address ⟨P.nx, P.ny, P.nz⟩ x y z)) (at3 H' (address ⟨P.nx, P.ny, P.nz⟩ x y z))) := by
  subst hE hH
  have he := e_half hw hd hs p b H W0 buf buf2 W0' buf' buf2' freqs Vol
  have hh := h_half hw hd hs p b H W1 buf3 buf4 W1' buf3' buf4' Vol
  constructor
  · obtain ⟨t, rs, t', h1, h2, h3, h4⟩ := C109_poynting cs hc dims hdims (pairs (getDR w d p H W0 buf buf2 freqs Vol b))
      (pairs (getER w d p H W0 buf buf2 freqs Vol b)) (pairs (getHR w d p H W1 buf3 buf4 Vol b))
    rw [toReals_pairs, toReals_pairs, toReals_pairs] at h2
    refine ⟨t, rs, t', h1, h2, fun x a b' c => ?_, h4⟩
    obtain ⟨a1, -, -⟩ := addr_full hN a b' c
    have e1 := he.stored hN hd x a b' c
    have e2 := hh.stored hN hd x a b' c
    simp only at e1 e2 ⊢
    rw [h3 _ (by rw [hsize]; exact a1), cvec_pairs, cvec_pairs, e1, e2, cvec_at3, cvec_at3]
  · intro x hx y hy z hz u
    have ho : opp P.nx P.ny P.nz (address ⟨P.nx, P.ny, P.nz⟩ x y z) = opposite ⟨P.nx, P.ny, P.nz⟩ x y z := by
      have e : address ⟨P.nx, P.ny, P.nz⟩ x y z = (x * P.ny + y) * P.nz + z := rfl
      unfold opp; rw [e, split_x _ hy hz, split_y _ hy hz, split_z _ hz]
    have hlt := rowMajor_lt (rowMajor_lt hx hy) hz
    have e1 := he.opp (address ⟨P.nx, P.ny, P.nz⟩ x y z) hlt
    have e2 := hh.opp (address ⟨P.nx, P.ny, P.nz⟩ x y z) hlt
    rw [ho, cvec_at3, cvec_at3] at e1 e2
    rw [e1, e2, fluxVec_conj]
    simp [along, conjV]

/-- The hypotheses hold for the glass cell of `FieldProps` and a session with one field variable. -/
example (junk x : ℕ → ℝ) (buf W0 buf2 W1 buf3 buf4 : ℕ → ℝ) (W0' buf' buf2' W1' buf3' buf4' : ℕ → ℂ) :=
  C111_poynting exGlass_ok.2.2 exGlass_ok.1 exGlass_ok.2.1 (by show 0 < 4 * 3 * 2; norm_num) 1 0 (fun a => if a = 0 then 1 else 0) W0 buf buf2 W1
    buf3 buf4 W0' buf' buf2' W1' buf3' buf4' (fun _ => 1 / 4) 3 _ _ rfl rfl
    [.init ⟨4, 3, 2, 24, 3, 0, 2, 4, 12⟩ 24 junk, .fill 'h' x, .fieldMake .cur]
    (by simp [AllowedRun, Allowed, Objects.Spec.step, Objects.Spec.start, Objects.Spec.make, Objects.Spec.lookup, letterKind])
    ⟨4, 3, 2, 24, 3, 0, 2, 4, 12⟩
    (by simp [Objects.Spec.run, Objects.Spec.step, Objects.Spec.start, Objects.Spec.make, Objects.Spec.lookup, letterKind]) rfl

end Mpb.RealBuild

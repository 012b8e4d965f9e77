import Verif.Flux.Spec
import Verif.Objects.Props
import Verif.Velocity.Props

/-!
# C109: the energy flux, the energy and the group velocity
-/

namespace Mpb.Flux

open Mpb.Maxwell Mpb.Maxwell.Spec Mpb.Field Mpb.Field.Spec Mpb.Objects Mpb.Flux.Spec Mpb.Velocity

/-! ### Lemmas -/

theorem decode_cv (F : ℕ → ℂ) (i : ℕ) : decode .cv (toReals F) i = .v (at3 F i) := by
  have h : ∀ j, (⟨toReals F (2 * j), toReals F (2 * j + 1)⟩ : ℂ) = F j := by
    intro j
    unfold toReals
    rw [if_pos (by omega), if_neg (by omega), Nat.mul_div_cancel_left _ Nat.two_pos, (by omega : (2 * j + 1) / 2 = j)]
  unfold decode at3
  simp only
  have e0 := h (3 * i)
  have e1 := h (3 * i + 1)
  have e2 := h (3 * i + 2)
  rw [show 2 * (3 * i) = 6 * i by ring] at e0
  rw [show 2 * (3 * i + 1) = 6 * i + 2 by ring, show 6 * i + 2 + 1 = 6 * i + 3 by ring] at e1
  rw [show 2 * (3 * i + 2) = 6 * i + 4 by ring, show 6 * i + 4 + 1 = 6 * i + 5 by ring] at e2
  rw [e0, e1, e2]

theorem cvec_at3 (F : ℕ → ℂ) (i : ℕ) : cvec (toReals F) i = at3 F i := cvec_toReals F i

theorem conjCross_kind (l : List Item) : itemKind (conjCross l) = .cv := by
  unfold conjCross; split <;> rfl

theorem addItems_kind (l : List Item) : itemKind (addItems l) = .rs := by
  unfold addItems; split <;> rfl

theorem conjCross_eq (e h : V3 ℂ) : conjCross [.v e, .v h] = .v (fluxVec e h) := rfl

/-- The E field is the inverse dielectric tensor times the D field. -/
theorem getE_at (d : OpData) (p : ℕ) (H W0 buf buf2 : ℕ → ℂ) (freqs : ℕ → ℝ) (Vol : ℝ) (b : ℕ) {r : ℕ} (hr : r < d.N) :
    at3 (getE d p H W0 buf buf2 freqs Vol b) r = (d.epsInv r).mulVec (at3 (getD d p H W0 buf buf2 freqs Vol b) r) := by
  have h := eFromD_apply (n := d.N) (num := 1) d.epsInv (getD d p H W0 buf buf2 freqs Vol b) hr Nat.zero_lt_one
  rw [show 3 * (r * 1 + 0) = 3 * r by ring] at h
  unfold at3 getE
  ext
  · exact h 0 (by omega)
  · exact h 1 (by omega)
  · exact h 2 (by omega)

theorem transform_cross (W : ℕ → ℕ → ℂ) (N : ℕ) (u : V3 ℝ) (a : ℕ → V3 ℂ) (r : ℕ) :
    transform W N (fun G => V3.cross (toC u) (a G)) r = V3.cross (toC u) (transform W N a r) := by
  unfold transform V3.cross
  ext
  all_goals
    simp only [Finset.mul_sum, ← Finset.sum_sub_distrib]
    refine Finset.sum_congr rfl (fun j _ => ?_)
    ring

/-- The flux of the two fields at a point, in terms of the curl and the field. -/
theorem along_fields (M : HMat) (u : V3 ℝ) (s t : ℝ) (c h : V3 ℂ) :
    along u (fluxVec (M.mulVec (V3.smul (s : ℂ) c)) (V3.smul (t : ℂ) h)) = -(s * t) * (herm c (M.mulVec (V3.cross (toC u) h))).re := by
  simp [along, fluxVec, herm, HMat.mulVec, V3.cross, toC]
  ring

theorem flux_eq (d : OpData) (hN : 0 < d.N) (K : ℕ → V3 ℝ) (hK : ∀ G < d.N, IsBasis (K G) (d.kpg G)) (p : ℕ)
    (H W0 buf buf2 W0' buf' buf2' : ℕ → ℂ) (freqs : ℕ → ℝ) (Vol : ℝ) (hV : 0 < Vol) (b : ℕ) (hf : freqs b ≠ 0) (u : V3 ℝ) :
    integral d.N Vol (fun r => along u (fluxVec (at3 (getE d p H W0 buf buf2 freqs Vol b) r) (at3 (getH d p H W0' buf' buf2' Vol b) r))) =
      Velocity.Spec.velocityForm d K u (bandMuinv d (band p H b)) / freqs b := by
  have hN' : (d.N : ℝ) ≠ 0 := by exact_mod_cast hN.ne'
  have e : ∀ r ∈ Finset.range d.N, along u (fluxVec (at3 (getE d p H W0 buf buf2 freqs Vol b) r) (at3 (getH d p H W0' buf' buf2' Vol b) r)) =
      1 / (freqs b * Vol) * (herm (curlField d K (bandMuinv d (band p H b)) r)
        ((d.epsInv r).mulVec (Velocity.Spec.ucrossField d u (bandMuinv d (band p H b)) r))).re := by
    intro r hr
    have hr := Finset.mem_range.1 hr
    rw [getE_at d p H W0 buf buf2 freqs Vol b hr, ← cvec_at3, ← cvec_at3, getD_vec d K hK p H W0 buf buf2 freqs Vol b hr,
      getH_vec d p H W0' buf' buf2' Vol b hr, along_fields, if_pos hf]
    unfold Velocity.Spec.ucrossField plainField
    rw [transform_cross]
    have hs0 : Real.sqrt Vol ≠ 0 := (Real.sqrt_pos.2 hV).ne'
    congr 1
    have hs2 : Real.sqrt Vol ^ 2 = Vol := Real.sq_sqrt hV.le
    have hV' := hV.ne'
    field_simp
    exact hs2.symm
  unfold integral Velocity.Spec.velocityForm gridForm
  rw [Finset.sum_congr rfl e, ← Finset.mul_sum]
  have h2 : ∀ z : ℂ, (1 / (d.N : ℂ) * z).re = 1 / (d.N : ℝ) * z.re := by
    intro z
    rw [show (1 / (d.N : ℂ)) = ((1 / (d.N : ℝ) : ℝ) : ℂ) by push_cast; rfl, Complex.re_ofReal_mul]
  rw [h2, Complex.re_sum]
  have hV' := hV.ne'
  field_simp

/-! ### The fields -/

/-- C109 (Poynting vector).  After any history of commands, `get-poynting` leaves as the current field, at each grid point, the vector
`E* × H` of the two fields of the band, marked as a field without Bloch phase; the user's field variables are as before. -/
theorem C109_poynting (cs : List Cmd) (hc : AllowedRun Spec.start cs) (dims : Dims) (hd : (Spec.start.run cs).1.sys = some dims) (D E H : ℕ → ℂ) :
    ∃ t rs t', run start cs = some (t, rs) ∧
      run t (poyntingCmds t.objs.length (toReals D) (toReals E) (toReals H)) = some (t', [.ok, .ok, .field t.objs.length, .ok, .ok, .ok, .ok]) ∧
      (∀ i < dims.N, (get .cur i t').map Prod.snd = some (.item 'v' (.v (fluxVec (at3 E i) (at3 H i))))) ∧
      ∀ j < t.objs.length, ∀ i, (get (.obj j) i t').map Prod.snd = (get (.obj j) i t).map Prod.snd := by
  obtain ⟨t, h1, R⟩ := run_spec start_rep cs hc
  set s := (Spec.start.run cs).1 with hs
  have hlen : s.objs.length = t.objs.length := R.objs.length_eq
  have ha : AllowedRun s (poyntingCmds t.objs.length (toReals D) (toReals E) (toReals H)) := by
    simp [AllowedRun, Allowed, poyntingCmds, Spec.step, hd, Spec.make, Spec.lookup, Spec.put, Spec.all, letterKind, ← hlen, conjCross_kind, freshLetter]
  obtain ⟨t', h2, R'⟩ := run_spec R _ ha
  have hr : (s.run (poyntingCmds t.objs.length (toReals D) (toReals E) (toReals H))).2 = [.ok, .ok, .field t.objs.length, .ok, .ok, .ok, .ok] := by
    simp [poyntingCmds, Spec.run, Spec.step, hd, Spec.make, Spec.lookup, Spec.put, Spec.all, letterKind, ← hlen, freshLetter]
  have hcur : (s.run (poyntingCmds t.objs.length (toReals D) (toReals E) (toReals H))).1.cur =
      some ⟨.cv, 'v', dims, fun i => conjCross [decode .cv (toReals E) i, decode .cv (toReals H) i]⟩ := by
    simp [poyntingCmds, Spec.run, Spec.step, hd, Spec.make, Spec.lookup, Spec.put, Spec.all, letterKind, ← hlen, freshLetter]
  have hobj : ∀ j < t.objs.length, (s.run (poyntingCmds t.objs.length (toReals D) (toReals E) (toReals H))).1.objs[j]? = s.objs[j]? := by
    intro j hj
    simp [poyntingCmds, Spec.run, Spec.step, hd, Spec.make, Spec.lookup, Spec.put, Spec.all, letterKind, ← hlen, freshLetter,
      List.getElem?_append_left (show j < s.objs.length by omega)]
  refine ⟨t, _, t', h1, by rw [h2, hr], fun i hi => ?_, fun j hj i => ?_⟩
  · obtain ⟨t1, h3, -⟩ := step_spec R' (.get .cur i) trivial
    rw [show get .cur i t' = _ from h3]
    simp only [Option.map_some, Spec.step, Spec.lookup, hcur, if_pos hi, decode_cv, conjCross_eq]
  · obtain ⟨t1, h3, -⟩ := step_spec R' (.get (.obj j) i) trivial
    obtain ⟨t2, h4, -⟩ := step_spec R (.get (.obj j) i) trivial
    rw [show get (.obj j) i t' = _ from h3, show get (.obj j) i t = _ from h4]
    simp only [Option.map_some, Spec.step, Spec.lookup, hobj j hj]
    cases s.objs[j]? with
    | none => rfl
    | some w => simp only []; split_ifs <;> rfl

/-- C109 (total energy density).  After any history of commands, `get-tot-pwr` leaves as the current field, at each grid point, the sum of
the electric and magnetic energy densities; the user's field variables are as before. -/
theorem C109_total (cs : List Cmd) (hc : AllowedRun Spec.start cs) (dims : Dims) (hd : (Spec.start.run cs).1.sys = some dims) (d : OpData)
    (hN : dims.N = d.N) (D B : ℕ → ℂ) :
    ∃ t rs t', run start cs = some (t, rs) ∧
      run t (totPwrCmds t.objs.length (toReals D) (densityOf d 'd' D) (toReals B) (densityOf d 'b' B)) =
        some (t', [.ok, .ok, .field t.objs.length, .ok, .field (t.objs.length + 1), .ok, .ok, .ok, .ok]) ∧
      (∀ i < dims.N, (get .cur i t').map Prod.snd = some (.item 'R' (.r ((herm (at3 D i) ((d.epsInv i).mulVec (at3 D i))).re +
        (herm (at3 B i) (match d.muInv with | none => at3 B i | some mu => (mu i).mulVec (at3 B i))).re)))) ∧
      ∀ j < t.objs.length, ∀ i, (get (.obj j) i t').map Prod.snd = (get (.obj j) i t).map Prod.snd := by
  obtain ⟨t, h1, R⟩ := run_spec start_rep cs hc
  set s := (Spec.start.run cs).1 with hs
  have hlen : s.objs.length = t.objs.length := R.objs.length_eq
  set De := densityOf d 'd' D with hDe
  set Be := densityOf d 'b' B with hBe
  have ha : AllowedRun s (totPwrCmds t.objs.length (toReals D) De (toReals B) Be) := by
    simp [AllowedRun, Allowed, totPwrCmds, Spec.step, hd, Spec.make, Spec.lookup, Spec.put, Spec.all, letterKind, ← hlen, addItems_kind, freshLetter]
  obtain ⟨t', h2, R'⟩ := run_spec R _ ha
  have hr : (s.run (totPwrCmds t.objs.length (toReals D) De (toReals B) Be)).2 =
      [.ok, .ok, .field t.objs.length, .ok, .field (t.objs.length + 1), .ok, .ok, .ok, .ok] := by
    simp [totPwrCmds, Spec.run, Spec.step, hd, Spec.make, Spec.lookup, Spec.put, Spec.all, letterKind, ← hlen, freshLetter]
  have hcur : (s.run (totPwrCmds t.objs.length (toReals D) De (toReals B) Be)).1.cur =
      some ⟨.rs, 'R', dims, fun i => addItems [decode .rs De i, decode .rs Be i]⟩ := by
    simp [totPwrCmds, Spec.run, Spec.step, hd, Spec.make, Spec.lookup, Spec.put, Spec.all, letterKind, ← hlen, freshLetter, newLetter]
  have hobj : ∀ j < t.objs.length, (s.run (totPwrCmds t.objs.length (toReals D) De (toReals B) Be)).1.objs[j]? = s.objs[j]? := by
    intro j hj
    have hj' : j < s.objs.length := by omega
    have n1 : ¬ s.objs.length = j := by omega
    have n2 : ¬ s.objs.length + 1 = j := by omega
    simp [totPwrCmds, Spec.run, Spec.step, hd, Spec.make, Spec.lookup, Spec.put, Spec.all, letterKind, ← hlen, freshLetter,
      List.getElem?_append_left hj', List.getElem?_set, n1, n2]
  refine ⟨t, _, t', h1, by rw [h2, hr], fun i hi => ?_, fun j hj i => ?_⟩
  · obtain ⟨t1, h3, -⟩ := step_spec R' (.get .cur i) trivial
    rw [show get .cur i t' = _ from h3]
    simp only [Option.map_some, Spec.step, Spec.lookup, hcur, if_pos hi]
    have hi' : i < d.N := by omega
    have hD : De i = (herm (at3 D i) ((d.epsInv i).mulVec (at3 D i))).re := by
      rw [hDe]
      unfold densityOf
      rw [(C42_in_place _ _ _ _).1 i hi', cvec_at3]
      rfl
    have hB : Be i = (herm (at3 B i) (match d.muInv with | none => at3 B i | some mu => (mu i).mulVec (at3 B i))).re := by
      rw [hBe]
      unfold densityOf
      rw [(C42_in_place _ _ _ _).1 i hi', cvec_at3]
      unfold energyField
      rw [if_neg (by decide), if_pos rfl]
      cases d.muInv <;> rfl
    rw [← hD, ← hB]
    rfl
  · obtain ⟨t1, h3, -⟩ := step_spec R' (.get (.obj j) i) trivial
    obtain ⟨t2, h4, -⟩ := step_spec R (.get (.obj j) i) trivial
    rw [show get (.obj j) i t' = _ from h3, show get (.obj j) i t = _ from h4]
    simp only [Option.map_some, Spec.step, Spec.lookup, hobj j hj]
    cases s.objs[j]? with
    | none => rfl
    | some w => simp only []; split_ifs <;> rfl

/-! ### Flux, energy and group velocity -/

/-- C109 (flux).  For every stored band of non-zero frequency: the integral over the cell of the component along `u` of the real part of
`E* × H` is the number `compute-1-group-velocity-component` returns for the direction `u`, whatever the dielectric tensors and the
permeability, and whatever was in the work arrays. -/
theorem C109_flux (v : VData) (hn : 0 < v.d.nfb) (hN : 0 < v.d.N) (hneg : v.neg = false) (hW : AdjointTransforms v.d) (K : ℕ → V3 ℝ)
    (hK : ∀ G < v.d.N, IsBasis (K G) (v.d.kpg G)) (Vol : ℝ) (hV : 0 < Vol) (H : ℕ → ℂ) (b : ℕ) (hf : v.freqs b ≠ 0) (u : V3 ℝ)
    (W0 buf buf2 W0' buf' buf2' W0'' W1 : ℕ → ℂ) (bufs : ℕ → ℕ → ℂ) :
    component1 v u bufs W0'' W1 H b = some (integral v.d.N Vol (fun r => along u (fluxVec
      (at3 (getE v.d v.p H W0 buf buf2 v.freqs Vol b) r) (at3 (getH v.d v.p H W0' buf' buf2' Vol b) r)))) := by
  rw [component1_eq v hn, flux_eq v.d hN K hK v.p H W0 buf buf2 W0' buf' buf2' v.freqs Vol hV b hf u, bandForm_eq hW hK]
  unfold scaleByFreq
  rw [if_neg hf, hneg]
  rfl

/-- The total returned by `compute-field-energy` is the integral of the density left in the array. -/
theorem energy_integral (N : ℕ) (Vol : ℝ) (T : ℕ → V3 ℂ → V3 ℂ) (mem : ℕ → ℝ) : (fieldEnergy T (fun _ => false) N N Vol mem).1 =
    integral N Vol (fun r => (energyLoop T (fun _ => false) N mem).mem r) := by
  unfold fieldEnergy integral
  simp only
  rw [(C42_in_place T (fun _ => false) N mem).2.2.1, rangeSum_false]
  have : ∀ r ∈ Finset.range N, (energyLoop T (fun _ => false) N mem).mem r = (herm (cvec mem r) (T r (cvec mem r))).re :=
    fun r hr => (C42_in_place T (fun _ => false) N mem).1 r (Finset.mem_range.1 hr)
  rw [Finset.sum_congr rfl this]
  ring

/-- C109 (energy).  For a normalised eigenvector of positive eigenvalue the integral over the cell of the total energy density (the sum of
the densities of `C109_total`) is 2, one for each field: so the flux divided by the mean of the two energies is the group velocity. -/
theorem C109_energy (d : OpData) (hN : 0 < d.N) (hW : AdjointTransforms d) (hU : Parseval d) (K : ℕ → V3 ℝ)
    (hK : ∀ G < d.N, IsBasis (K G) (d.kpg G)) (p : ℕ) (H W0 buf buf2 buf3 : ℕ → ℂ) (freqs : ℕ → ℝ) (b : ℕ) (lam Vol : ℝ) (hV : 0 < Vol)
    (hx : EigenBand d (band p H b) lam) (hl : 0 < lam) (hf : freqs b = Real.sqrt lam) :
    integral d.N Vol (fun r => densityOf d 'd' (getD d p H W0 buf buf2 freqs Vol b) r + densityOf d 'b' (getB d p H buf3 Vol b) r) = 2 := by
  have h1 := C47_d_partial d hN hW K hK p H W0 buf buf2 freqs b lam Vol hV hx hl hf
  have h2 := C47_b d hN hW hU K hK p H buf3 b lam Vol hV hx
  rw [energy_integral] at h1 h2
  unfold integral at h1 h2 ⊢
  unfold densityOf
  rw [Finset.sum_add_distrib, mul_add, h1, h2]
  norm_num

/-! ### No band is faster than light -/

theorem atLeast_sq {a : ℝ} (ha : 0 < a) {M : HMat} (h : AtLeast a M) (v : V3 ℂ) :
    a * (herm (M.mulVec v) (M.mulVec v)).re ≤ (herm v (M.mulVec v)).re := by
  set w := M.mulVec v with hw
  have h1 := h.1 (v + V3.smul ((-a : ℝ) : ℂ) w)
  have h2 := h.2 w
  rw [herm_mulVec_expand] at h1
  have e1 : herm w (M.mulVec v) = herm w w := by rw [← hw]
  have e2 : (herm v (M.mulVec w)).re = (herm w w).re := by
    have : herm v (M.mulVec w) = (starRingEnd ℂ) (herm w (M.mulVec v)) := by
      apply Complex.ext <;> simp [herm, HMat.mulVec] <;> ring
    rw [this, e1, Complex.conj_re]
  rw [← hw] at h1
  simp only [Complex.add_re, Complex.re_ofReal_mul, e2] at h1
  have h3 : 0 ≤ a * ((herm w w).re - a * (herm w (M.mulVec w)).re) := mul_nonneg ha.le (by linarith)
  nlinarith [h1, h3]

/-- `|u · Re(E* × H)| ≤ |E| |H|`, in the form needed. -/
theorem along_le (u : V3 ℝ) (hu : V3.dot u u = 1) (E H : V3 ℂ) {q : ℝ} (hq : 0 < q) :
    |along u (fluxVec E H)| ≤ (q * (herm E E).re + (herm H H).re / q) / 2 := by
  have hu' : u.x * u.x + u.y * u.y + u.z * u.z = 1 := hu
  -- the square of `q E ± H × u`
  have key : ∀ s : ℝ, s * s = 1 → s * along u (fluxVec E H) ≤ (q * (herm E E).re + (herm H H).re / q) / 2 := by
    intro s hs
    set c : V3 ℂ := V3.cross H (toC u) with hc
    have h0 : 0 ≤ (herm (V3.smul (q : ℂ) E + V3.smul ((-s : ℝ) : ℂ) c) (V3.smul (q : ℂ) E + V3.smul ((-s : ℝ) : ℂ) c)).re := by
      simp only [herm, Complex.add_re, Complex.mul_re, Complex.conj_re, Complex.conj_im]
      nlinarith [sq_nonneg (V3.smul (q : ℂ) E + V3.smul ((-s : ℝ) : ℂ) c).x.re, sq_nonneg (V3.smul (q : ℂ) E + V3.smul ((-s : ℝ) : ℂ) c).x.im,
        sq_nonneg (V3.smul (q : ℂ) E + V3.smul ((-s : ℝ) : ℂ) c).y.re, sq_nonneg (V3.smul (q : ℂ) E + V3.smul ((-s : ℝ) : ℂ) c).y.im,
        sq_nonneg (V3.smul (q : ℂ) E + V3.smul ((-s : ℝ) : ℂ) c).z.re, sq_nonneg (V3.smul (q : ℂ) E + V3.smul ((-s : ℝ) : ℂ) c).z.im]
    have h1 : (herm (V3.smul (q : ℂ) E + V3.smul ((-s : ℝ) : ℂ) c) (V3.smul (q : ℂ) E + V3.smul ((-s : ℝ) : ℂ) c)).re =
        q * q * (herm E E).re - 2 * q * s * (herm E c).re + s * s * (herm c c).re := by
      simp [herm]; ring
    have h2 : (herm E c).re = along u (fluxVec E H) := by
      simp [herm, hc, V3.cross, toC, along, fluxVec]; ring
    have h3 : (herm c c).re ≤ (herm H H).re := by
      have e : (herm H H).re - (herm c c).re = (u.x * H.x.re + u.y * H.y.re + u.z * H.z.re) ^ 2 +
          (u.x * H.x.im + u.y * H.y.im + u.z * H.z.im) ^ 2 := by
        simp [herm, hc, V3.cross, toC]
        linear_combination (-(H.x.re ^ 2 + H.y.re ^ 2 + H.z.re ^ 2 + H.x.im ^ 2 + H.y.im ^ 2 + H.z.im ^ 2)) * hu'
      nlinarith [sq_nonneg (u.x * H.x.re + u.y * H.y.re + u.z * H.z.re), sq_nonneg (u.x * H.x.im + u.y * H.y.im + u.z * H.z.im)]
    rw [h1, h2, hs] at h0
    have h4 : 2 * q * (s * along u (fluxVec E H)) ≤ q * q * (herm E E).re + (herm H H).re := by nlinarith
    have h5 : (q * (herm E E).re + (herm H H).re / q) / 2 = (q * q * (herm E E).re + (herm H H).re) / (2 * q) := by
      field_simp
    rw [h5, le_div_iff₀ (by positivity)]
    linarith
  rw [abs_le]
  have h1 := key 1 (by norm_num)
  have h2 := key (-1) (by norm_num)
  constructor <;> linarith

theorem re_inv_mul (N : ℕ) (z : ℂ) : (1 / (N : ℂ) * z).re = 1 / (N : ℝ) * z.re := by
  rw [show (1 / (N : ℂ)) = ((1 / (N : ℝ) : ℝ) : ℂ) by push_cast; rfl, Complex.re_ofReal_mul]

/-- The mean square of the H field, from the magnetic energy. -/
theorem h_square_le {d : OpData} (hN : 0 < d.N) (hW : AdjointTransforms d) (hU : Parseval d) {K : ℕ → V3 ℝ}
    (hK : ∀ G < d.N, IsBasis (K G) (d.kpg G)) {m : ℝ} (hm : 0 < m) (hμ : MuAtLeast d m) (x : ℕ → ℂ × ℂ) :
    m * (Maxwell.Spec.inner d.N (bandMuinv d x) (bandMuinv d x)).re ≤ (Maxwell.Spec.inner d.N x (bandMuinv d x)).re := by
  have hpos : ∀ y : ℕ → ℂ × ℂ, 0 ≤ (Maxwell.Spec.inner d.N y y).re := by
    intro y
    unfold Maxwell.Spec.inner
    rw [Complex.re_sum]
    refine Finset.sum_nonneg (fun G _ => ?_)
    simp only [hermT, Complex.add_re, Complex.mul_re, Complex.conj_re, Complex.conj_im]
    nlinarith [sq_nonneg (y G).1.re, sq_nonneg (y G).1.im, sq_nonneg (y G).2.re, sq_nonneg (y G).2.im]
  unfold MuAtLeast at hμ
  unfold bandMuinv
  cases hmu : d.muInv with
  | none =>
    rw [hmu] at hμ
    simp only at hμ ⊢
    nlinarith [hpos x]
  | some mu =>
    rw [hmu] at hμ
    simp only at hμ ⊢
    set y := bandMu d mu x with hy
    have e1 : ∀ z, Maxwell.Spec.inner d.N z y = gridForm d.N mu (plainField d z) (plainField d x) := fun z => inner_plain hW mu z x
    -- the form of `x - m y` is not negative
    have h0 := gridForm_nonneg d.N mu (fun r hr => (hμ r hr).1) (fun r => plainField d x r + V3.smul ((-m : ℝ) : ℂ) (plainField d y r))
    rw [gridForm_expand] at h0
    have h1 : (gridForm d.N mu (plainField d x) (plainField d y)).re = (Maxwell.Spec.inner d.N y y).re := by
      rw [gridForm_symm, Complex.conj_re, ← e1]
    have h2 : (gridForm d.N mu (plainField d y) (plainField d x)).re = (Maxwell.Spec.inner d.N y y).re := by rw [← e1]
    have h3 : m * (gridForm d.N mu (plainField d y) (plainField d y)).re ≤ (Maxwell.Spec.inner d.N y y).re := by
      rw [← parseval_inner hN hU hK y y]
      unfold gridForm
      rw [re_inv_mul, re_inv_mul, Complex.re_sum, Complex.re_sum, ← mul_assoc, mul_comm m, mul_assoc, Finset.mul_sum]
      refine mul_le_mul_of_nonneg_left (Finset.sum_le_sum (fun r hr => ?_)) (by positivity)
      exact (hμ r (Finset.mem_range.1 hr)).2 _
    simp only [Complex.add_re, Complex.re_ofReal_mul, h1, h2] at h0
    rw [e1 x]
    nlinarith [mul_le_mul_of_nonneg_left h3 hm.le]

/-- C109 (speed).  For a normalised eigenvector: if the dielectric tensor is nowhere below `a` and the permeability nowhere below `m`, the
number `compute-1-group-velocity-component` returns for a unit vector `u` is between `-1/√(a m)` and `1/√(a m)`; in particular no
computed group velocity exceeds the speed of light (1) if `ε ≥ 1` and there is no permeability below 1. -/
theorem C109_speed (v : VData) (hn : 0 < v.d.nfb) (hN : 0 < v.d.N) (hneg : v.neg = false) (hW : AdjointTransforms v.d) (hU : Parseval v.d)
    (K : ℕ → V3 ℝ) (hK : ∀ G < v.d.N, IsBasis (K G) (v.d.kpg G)) (H : ℕ → ℂ) (b : ℕ) (lam : ℝ) (hx : EigenBand v.d (band v.p H b) lam)
    (hl : 0 ≤ lam) (hf : v.freqs b = Real.sqrt lam) {a m : ℝ} (ha : 0 < a) (hm : 0 < m) (hε : ∀ r < v.d.N, AtLeast a (v.d.epsInv r))
    (hμ : MuAtLeast v.d m) (u : V3 ℝ) (hu : V3.dot u u = 1) (bufs : ℕ → ℕ → ℂ) (W0 W1 : ℕ → ℂ) :
    ∃ g, component1 v u bufs W0 W1 H b = some g ∧ |g| ≤ 1 / Real.sqrt (a * m) := by
  rcases hl.eq_or_lt with h0 | h0
  · refine ⟨0, ?_, by rw [abs_zero]; positivity⟩
    rw [component1_eq v hn]
    unfold scaleByFreq
    rw [if_pos (by rw [hf, ← h0, Real.sqrt_zero])]
  have hf0 : v.freqs b ≠ 0 := by rw [hf]; exact (Real.sqrt_pos.2 h0).ne'
  refine ⟨_, C109_flux v hn hN hneg hW K hK 1 one_pos H b hf0 u 0 0 0 0 0 0 W0 W1 bufs, ?_⟩
  set E := at3 (getE v.d v.p H 0 0 0 v.freqs 1 b) with hE
  set D := at3 (getD v.d v.p H 0 0 0 v.freqs 1 b) with hD
  set F := at3 (getH v.d v.p H 0 0 0 1 b) with hF
  set N := v.d.N with hNN
  have hN' : (0 : ℝ) < N := by exact_mod_cast hN
  set q := Real.sqrt (a / m) with hq
  have hq0 : 0 < q := Real.sqrt_pos.2 (div_pos ha hm)
  -- the two mean squares
  have hA : a * (1 / N * ∑ r ∈ Finset.range N, (herm (E r) (E r)).re) ≤ 1 := by
    have h1 := C47_d_partial v.d hN hW K hK v.p H 0 0 0 v.freqs b lam 1 one_pos hx h0 hf
    unfold fieldEnergy at h1
    simp only at h1
    rw [(C42_in_place _ _ _ _).2.2.1, rangeSum_false] at h1
    have h2 : ∑ r ∈ Finset.range N, a * (herm (E r) (E r)).re ≤ ∑ i ∈ Finset.range v.d.N,
        (herm (cvec (toReals (getD v.d v.p H 0 0 0 v.freqs 1 b)) i)
          (energyField 'd' v.d.epsInv v.d.muInv i (cvec (toReals (getD v.d v.p H 0 0 0 v.freqs 1 b)) i))).re := by
      refine Finset.sum_le_sum (fun r hr => ?_)
      have hr := Finset.mem_range.1 hr
      rw [hE, getE_at v.d v.p H 0 0 0 v.freqs 1 b hr, cvec_at3]
      unfold energyField
      rw [if_pos rfl]
      exact atLeast_sq ha (hε r hr) _
    rw [← Finset.mul_sum] at h2
    rw [mul_one, div_eq_iff hN'.ne', one_mul] at h1
    rw [h1] at h2
    rw [mul_left_comm, one_div, inv_mul_le_iff₀ hN', mul_one]
    exact h2
  have hB : m * (1 / N * ∑ r ∈ Finset.range N, (herm (F r) (F r)).re) ≤ 1 := by
    have h1 := h_square_le hN hW hU hK hm hμ (band v.p H b)
    rw [hx.norm, Complex.one_re, ← parseval_inner hN hU hK, re_inv_mul, Complex.re_sum] at h1
    have e : ∀ r ∈ Finset.range N, (herm (F r) (F r)).re =
        (herm (plainField v.d (bandMuinv v.d (band v.p H b)) r) (plainField v.d (bandMuinv v.d (band v.p H b)) r)).re := by
      intro r hr
      rw [hF, ← cvec_at3, getH_vec v.d v.p H 0 0 0 1 b (Finset.mem_range.1 hr), Real.sqrt_one, herm_smul]
      simp
    rw [Finset.sum_congr rfl e]
    exact h1
  have hI : |integral N 1 (fun r => along u (fluxVec (E r) (F r)))| ≤
      (q * (1 / N * ∑ r ∈ Finset.range N, (herm (E r) (E r)).re) + (1 / N * ∑ r ∈ Finset.range N, (herm (F r) (F r)).re) / q) / 2 := by
    unfold integral
    rw [abs_mul, abs_of_pos (by positivity : (0 : ℝ) < 1 / N)]
    calc 1 / (N : ℝ) * |∑ r ∈ Finset.range N, along u (fluxVec (E r) (F r))|
        ≤ 1 / (N : ℝ) * ∑ r ∈ Finset.range N, ((q * (herm (E r) (E r)).re + (herm (F r) (F r)).re / q) / 2) := by
          refine mul_le_mul_of_nonneg_left ?_ (by positivity)
          refine (Finset.abs_sum_le_sum_abs _ _).trans (Finset.sum_le_sum (fun r _ => along_le u hu _ _ hq0))
      _ = _ := by
          rw [← Finset.sum_div, Finset.sum_add_distrib, ← Finset.mul_sum, ← Finset.sum_div]
          ring
  refine hI.trans ?_
  set A := 1 / (N : ℝ) * ∑ r ∈ Finset.range N, (herm (E r) (E r)).re
  set B := 1 / (N : ℝ) * ∑ r ∈ Finset.range N, (herm (F r) (F r)).re
  have hA' : A ≤ 1 / a := by rw [le_div_iff₀ ha]; linarith
  have hB' : B ≤ 1 / m := by rw [le_div_iff₀ hm]; linarith
  have h1 : q * A ≤ q * (1 / a) := mul_le_mul_of_nonneg_left hA' hq0.le
  have h2 : B / q ≤ (1 / m) / q := div_le_div_of_nonneg_right hB' hq0.le
  have sa : Real.sqrt a ^ 2 = a := Real.sq_sqrt ha.le
  have sm : Real.sqrt m ^ 2 = m := Real.sq_sqrt hm.le
  have sa0 := Real.sqrt_pos.2 ha
  have sm0 := Real.sqrt_pos.2 hm
  have h3 : q * (1 / a) = 1 / Real.sqrt (a * m) := by
    rw [hq, Real.sqrt_div ha.le, Real.sqrt_mul ha.le]
    nth_rewrite 2 [← sa]
    field_simp
  have h4 : (1 / m) / q = 1 / Real.sqrt (a * m) := by
    rw [hq, Real.sqrt_div ha.le, Real.sqrt_mul ha.le]
    nth_rewrite 1 [← sm]
    field_simp
  linarith

/-! ### Negative permittivities allowed -/

/-- C109 (flux) fails when negative permittivities are allowed: for the plane wave with wavenumber 2 in vacuum, a normalised eigenvector, the
group velocity is 1 but the flux of the fields is 1/2, because `get-dfield` divides by the stored `ω²` instead of `ω`; the mean of the two
energies is 5/8, so that neither the flux nor the flux over the energy is the group velocity. -/
theorem C109_negative_refuted (W0 buf buf2 W0' buf' buf2' W0'' W1 buf3 : ℕ → ℂ) (bufs : ℕ → ℕ → ℂ) :
    let v : VData := ⟨exD, 1, 1, true, true, fun _ => storedFreq true 4⟩
    let H : ℕ → ℂ := fun a => if a = 0 then 1 else 0
    EigenBand v.d (band v.p H 0) 4 ∧ component1 v ⟨1, 0, 0⟩ bufs W0'' W1 H 0 = some 1 ∧
    integral v.d.N 8 (fun r => along ⟨1, 0, 0⟩ (fluxVec (at3 (getE v.d v.p H W0 buf buf2 v.freqs 8 0) r) (at3 (getH v.d v.p H W0' buf' buf2' 8 0) r))) = 1 / 2 ∧
    integral v.d.N 8 (fun r => densityOf v.d 'd' (getD v.d v.p H W0 buf buf2 v.freqs 8 0) r + densityOf v.d 'b' (getB v.d v.p H buf3 8 0) r) / 2 = 5 / 8 := by
  intro v H
  have hvf : Velocity.Spec.velocityForm exD (fun _ => ⟨2, 0, 0⟩) ⟨1, 0, 0⟩ (bandMuinv exD (band 1 H 0)) = 2 := by
    simp [Velocity.Spec.velocityForm, gridForm, curlField, Velocity.Spec.ucrossField, transform, bandMuinv, exD, OpData.N, band, H, cart, toC, V3.cross, herm,
      HMat.mulVec]
  have hfr : v.freqs 0 = 4 := rfl
  refine ⟨exD_eigen, ?_, ?_, ?_⟩
  · rw [component1_eq v (by decide), bandForm_eq (K := fun _ => ⟨2, 0, 0⟩) exD_ok.2.1 exD_basis, hvf, hfr]
    unfold scaleByFreq
    rw [if_neg (by norm_num), if_pos rfl]
    have : Real.sqrt |(4 : ℝ)| = 2 := by
      rw [show |(4 : ℝ)| = 2 ^ 2 by norm_num]
      exact Real.sqrt_sq (by norm_num)
    rw [this]
    norm_num
  · rw [flux_eq v.d exD_ok.1 (fun _ => ⟨2, 0, 0⟩) exD_basis v.p H W0 buf buf2 W0' buf' buf2' v.freqs 8 (by norm_num) 0 (by rw [hfr]; norm_num), hvf, hfr]
    norm_num
  · have h1 := C47_negative exD exD_ok.1 exD_ok.2.1 _ exD_basis 1 H W0 buf buf2 v.freqs 0 4 8 (by norm_num) exD_eigen (by norm_num) rfl
    have h2 := C47_b exD exD_ok.1 exD_ok.2.1 exD_ok.2.2 _ exD_basis 1 H buf3 0 4 8 (by norm_num) exD_eigen
    rw [energy_integral] at h1 h2
    unfold integral at h1 h2 ⊢
    unfold densityOf
    rw [Finset.sum_add_distrib, mul_add, show v.d = exD from rfl, show v.p = 1 from rfl, h1, h2]
    norm_num

/-! ### Examples -/

/-- `C109_flux`, `C109_energy` and `C109_speed` apply to the plane wave: its flux is its group velocity 1, the speed of light. -/
example (bufs : ℕ → ℕ → ℂ) (W0 W1 : ℕ → ℂ) :
    let v : VData := ⟨exD, 1, 1, true, false, fun _ => Real.sqrt 4⟩
    let H : ℕ → ℂ := fun a => if a = 0 then 1 else 0
    component1 v ⟨1, 0, 0⟩ bufs W0 W1 H 0 = some (integral v.d.N 8 (fun r => along ⟨1, 0, 0⟩ (fluxVec
      (at3 (getE v.d v.p H 0 0 0 v.freqs 8 0) r) (at3 (getH v.d v.p H 0 0 0 8 0) r)))) ∧
    integral v.d.N 8 (fun r => densityOf v.d 'd' (getD v.d v.p H 0 0 0 v.freqs 8 0) r + densityOf v.d 'b' (getB v.d v.p H 0 8 0) r) = 2 ∧
    ∃ g, component1 v ⟨1, 0, 0⟩ bufs W0 W1 H 0 = some g ∧ |g| ≤ 1 / Real.sqrt (1 * 1) := by
  intro v H
  have h4 : Real.sqrt 4 ≠ 0 := (Real.sqrt_pos.2 (by norm_num)).ne'
  refine ⟨C109_flux v (by decide) exD_ok.1 rfl exD_ok.2.1 (fun _ => ⟨2, 0, 0⟩) exD_basis 8 (by norm_num) H 0 h4 _ _ _ _ _ _ _ _ _ _,
    C109_energy exD exD_ok.1 exD_ok.2.1 exD_ok.2.2 _ exD_basis 1 H 0 0 0 0 _ 0 4 8 (by norm_num) exD_eigen (by norm_num) rfl,
    C109_speed v (by decide) exD_ok.1 rfl exD_ok.2.1 exD_ok.2.2 (fun _ => ⟨2, 0, 0⟩) exD_basis H 0 4 exD_eigen (by norm_num) rfl one_pos one_pos
      (fun r _ => ?_) (le_refl _) _ (by simp [V3.dot]) bufs W0 W1⟩
  have hM : ∀ w : V3 ℂ, HMat.mulVec ⟨1, 1, 1, 0, 0, 0⟩ w = w := by
    intro w; ext <;> apply Complex.ext <;> simp [HMat.mulVec]
  refine ⟨fun w => ?_, fun w => ?_⟩
  · show 0 ≤ (herm w (HMat.mulVec ⟨1, 1, 1, 0, 0, 0⟩ w)).re
    rw [hM]
    simp only [herm, Complex.add_re, Complex.mul_re, Complex.conj_re, Complex.conj_im]
    nlinarith [sq_nonneg w.x.re, sq_nonneg w.x.im, sq_nonneg w.y.re, sq_nonneg w.y.im, sq_nonneg w.z.re, sq_nonneg w.z.im]
  · show 1 * (herm w (HMat.mulVec ⟨1, 1, 1, 0, 0, 0⟩ w)).re ≤ _
    rw [hM, one_mul]

/-- `C109_poynting` and `C109_total` apply after `init-params`, with a field variable made by the user. -/
example (junk x : ℕ → ℝ) : AllowedRun Spec.start [.init d2 2 junk, .fill 'h' x, .fieldMake .cur] ∧
    (Spec.start.run [.init d2 2 junk, .fill 'h' x, .fieldMake .cur]).1.sys = some d2 ∧ d2.N = 2 := by
  refine ⟨?_, ?_, rfl⟩
  · simp [AllowedRun, Allowed, Spec.step, Spec.start, Spec.make, Spec.lookup, letterKind, d2]
  · simp [Spec.run, Spec.step, Spec.start, Spec.make, Spec.lookup, letterKind]

end Mpb.Flux

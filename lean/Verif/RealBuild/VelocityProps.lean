import Verif.RealBuild.FieldProps
import Verif.RealBuild.VelocityModel
import Verif.Velocity.Props

/-!
# Property C111 for the group velocities of the build for structures with inversion symmetry

`compute-group-velocity-component`, `compute-1-group-velocity-component` and `compute-group-velocities` of `mpbi` return the numbers that those
of `mpb` return.
-/

namespace Mpb.RealBuild
open Mpb.Maxwell Mpb.Maxwell.Spec Mpb.Invariance Mpb.Invariance.Spec Mpb.Field Mpb.Velocity Spec

theorem ucrossT2cR_cast (u : V3 ℝ) (k : KData) (a b : ℝ) : toC (ucrossT2cR u k a b) = ucrossT2c u k a b := by
  ext <;> apply Complex.ext <;> simp [toC, V3.map, ucrossT2cR, ucrossT2c]

section
variable {w : Fftw} {d : RData} {P : Problem}

theorem ucrossR_bands (hw : IsC2R ⟨P.nx, P.ny, P.nz⟩ w) (hd : Represents d P) (hs : Symmetric P) (hn : 0 < d.nfb) (u : V3 ℝ) (p : ℕ)
    (bufs : ℕ → ℕ → ℝ) (Xin Xout : ℕ → ℝ) : ∃ R, ucrossOperatorR w d u p bufs Xin Xout = some R ∧
      ∀ b < p, ∀ G < d.N, cband p R b G = colOp (ucrossT2c u) crossC2t P.data P.data.epsInv (-1 / (P.data.N : ℝ)) (cband p Xin b) G := by
  unfold ucrossOperatorR
  rw [if_neg (by omega)]
  refine ⟨_, rfl, (chunksR_apply hn _ (fun b => colOp (ucrossT2c u) crossC2t P.data P.data.epsInv (-1 / (P.data.N : ℝ)) (cband p Xin b))
    (fun X ch hch => ?_) Xout).1⟩
  have := chainR_apply (ucrossT2cR_cast u) crossC2tR_cast hw hd hd.eps hs.1 (-1 / (d.N : ℝ)) Xin (bufs ch.1) X hch
  refine ⟨fun G hG b hb => (this.1 G hG b hb).trans ?_, this.2⟩
  rw [N_eq hd]
  rfl

theorem copyColsR_apply {N px py : ℕ} (Y X : ℕ → ℝ) {ix iy num : ℕ} (hx : ix + num ≤ px) :
    ∀ G < N, ∀ b < num, cband px (copyColsR (N * 2) px py Y X ix iy num) (ix + b) G = cband py Y (iy + b) G := by
  intro G hG b hb
  have key : ∀ i < N * 2, copyColsR (N * 2) px py Y X ix iy num (i * px + (ix + b)) = Y (i * py + (iy + b)) := by
    intro i hi
    have e : i * px + (ix + b) = i * px + b + ix := by ring
    have e' : i * py + (iy + b) = i * py + b + iy := by ring
    rw [e, e']
    refine writes_map_apply (addr := fun t : ℕ × ℕ => t.1 * px + t.2 + ix) (val := fun t => Y (t.1 * py + t.2 + iy))
      (i := (i, b)) (mem_loop2.2 ⟨hi, hb⟩) (fun j hj e => ?_)
    obtain ⟨j1, j2⟩ := j
    have hj' := mem_loop2.1 hj
    simp only at e hj' ⊢
    obtain ⟨rfl, rfl⟩ := rowMajor_inj (q := j1) (r := j2) (q' := i) (r' := b) (show j2 < px by omega) (by omega) (by omega)
    rfl
  exact congrArg castP (Prod.ext (key _ (by omega)) (key _ (by omega)))

theorem HFromBR_apply (hw : IsC2R ⟨P.nx, P.ny, P.nz⟩ w) (hd : Represents d P) (hs : Symmetric P) (same : Bool) {pin pout : ℕ}
    (Bin Hout buf : ℕ → ℝ) {bstart hstart num : ℕ} (hp : hstart + num ≤ pout) (hsm : same = true → Hout = Bin ∧ pin = pout ∧ bstart = hstart) :
    ∀ G < d.N, ∀ b < num, cband pout (HFromBR w d same pin pout Bin Hout buf bstart hstart num) (hstart + b) G =
      bandMuinv P.data (cband pin Bin (bstart + b)) G := by
  intro G hG b hb
  unfold HFromBR bandMuinv
  rcases hd.mu with ⟨m1, m2⟩ | ⟨mu, muh, m1, m2, hm⟩
  · rw [m2, show P.data.muInv = none from m1]
    dsimp only
    cases hsame : same with
    | true =>
      obtain ⟨rfl, rfl, rfl⟩ := hsm hsame
      rfl
    | false => exact copyColsR_apply Bin Hout hp G hG b hb
  · rw [m2, show P.data.muInv = some mu from m1]
    refine ((chainR_general t2cR_cast c2tR_cast hw hd hm (hs.2 mu m1) (1 / (d.N : ℝ)) Bin buf Hout hp).1 G hG b hb).trans ?_
    rw [N_eq hd]
    rfl

theorem bandMuinv_agree {d : OpData} {x x' : ℕ → ℂ × ℂ} (h : ∀ G < d.N, x G = x' G) : ∀ G < d.N, bandMuinv d x G = bandMuinv d x' G := by
  intro G hG
  unfold bandMuinv
  cases d.muInv with
  | none => exact h G hG
  | some mu => exact colOp_congr _ _ _ _ _ h G

/-- The diagonal of `X† A X` in the two builds. -/
theorem diagR_eq {N p : ℕ} {X W : ℕ → ℂ} {XR WR : ℕ → ℝ} (hX : ∀ b < p, ∀ G < N, band p X b G = cband p XR b G)
    (hW : ∀ b < p, ∀ G < N, band p W b G = cband p WR b G) {j : ℕ} (hj : j < p) :
    xtyDiagRealR XR WR (N * 2) p j = xtyDiagReal X W (N * 2) p j := by
  unfold xtyDiagRealR xtyDiagReal
  refine Finset.sum_congr rfl fun i hi => ?_
  have ha : i * p + j < N * 2 * p := rowMajor_lt (Finset.mem_range.1 hi) hj
  rw [eq_of_bands hX ha, eq_of_bands hW ha]
  simp

/-- `maxwell_ucross_op` on fields that agree, in the two builds. -/
theorem ucross_agree (hw : IsC2R ⟨P.nx, P.ny, P.nz⟩ w) (hd : Represents d P) (hs : Symmetric P) (hn : 0 < d.nfb) (u : V3 ℝ) (p : ℕ)
    (bufs : ℕ → ℕ → ℂ) (bufsR : ℕ → ℕ → ℝ) {X W0 : ℕ → ℂ} {XR W0R : ℕ → ℝ} (hX : ∀ b < p, ∀ G < d.N, band p X b G = cband p XR b G) :
    ∃ W WR, ucrossOperator P.data u p bufs X W0 = some W ∧ ucrossOperatorR w d u p bufsR XR W0R = some WR ∧
      ∀ j < p, xtyDiagRealR XR WR (d.N * 2) p j = xtyDiagReal X W (P.data.N * 2) p j := by
  have hN := N_eq hd
  obtain ⟨W, e1, h1, -⟩ := C04_ucross_bands P.data u p (by show 0 < P.nfb; rw [← hd.nfb]; exact hn) bufs X W0
  obtain ⟨WR, e2, h2⟩ := ucrossR_bands hw hd hs hn u p bufsR XR W0R
  refine ⟨W, WR, e1, e2, fun j hj => ?_⟩
  rw [← hN]
  refine diagR_eq hX (fun b hb G hG => ?_) hj
  rw [h2 b hb G hG, h1 b hb G (by rw [← hN]; exact hG)]
  exact colOp_congr _ _ _ _ _ (fun G' hG' => hX b hb G' (by rw [hN]; exact hG')) G

end

/-! ### The loop over blocks -/

section
variable {w : Fftw} {vr : VDataR} {P : Problem}

/-- The data of `mpb` for the same bands. -/
noncomputable def VDataR.general (vr : VDataR) (P : Problem) : VData := ⟨P.data, vr.p, vr.alloc, vr.same, vr.neg, vr.freqs⟩

/-- The arrays of the two builds hold the same numbers. -/
structure Agree (vr : VDataR) (s : VState) (sR : VStateR) : Prop where
  H : ∀ b < vr.p, ∀ G < vr.d.N, band vr.p s.H b G = cband vr.p sR.H b G
  gv : sR.gv = s.gv

theorem blockStep_agree (hw : IsC2R ⟨P.nx, P.ny, P.nz⟩ w) (hd : Represents vr.d P) (hs : Symmetric P) (hn : 0 < vr.d.nfb) (u : V3 ℝ)
    (bufs : ℕ → ℕ → ℕ → ℂ) (bufsR : ℕ → ℕ → ℕ → ℝ) (W0 : ℕ → ℂ) (W0R : ℕ → ℝ) {s : VState} {sR : VStateR} (h : Agree vr s sR) {ib : ℕ}
    (hib : ib < vr.p) (hsm : vr.same = true → ib = 0 ∧ vr.alloc = vr.p) :
    ∃ s' sR', blockStep (vr.general P) u bufs W0 s ib = some s' ∧ blockStepR w vr u bufsR W0R sR ib = some sR' ∧ Agree vr s' sR' := by
  have hN := N_eq hd
  have hnum : ib + vr.num ib ≤ vr.p := by unfold VDataR.num; omega
  have hX : ∀ b < vr.num ib, ∀ G < vr.d.N, band (vr.num ib) ((vr.general P).block s.H s.Hb (bufs ib 0) ib) b G =
      cband (vr.num ib) (vr.block w sR.H sR.Hb (bufsR ib 0) ib) b G := by
    intro b hb G hG
    have hsame : vr.same = true → vr.p = vr.num ib ∧ ib = 0 := fun hh => by
      obtain ⟨h0, h1⟩ := hsm hh
      exact ⟨by unfold VDataR.num; omega, h0⟩
    have e1 := HFromB_apply P.data vr.same (pin := vr.p) (pout := vr.num ib) s.H (if vr.same then s.H else s.Hb) (bufs ib 0) (bstart := ib) (hstart := 0)
      (num := vr.num ib) (by omega) (fun hh => ⟨if_pos hh, hsame hh⟩) G (by rw [← hN]; exact hG) b hb
    have e2 := HFromBR_apply hw hd hs vr.same (pin := vr.p) (pout := vr.num ib) sR.H (if vr.same then sR.H else sR.Hb) (bufsR ib 0) (bstart := ib)
      (hstart := 0) (num := vr.num ib) (by omega) (fun hh => ⟨if_pos hh, hsame hh⟩) G hG b hb
    rw [Nat.zero_add] at e1 e2
    refine e1.trans (Eq.trans ?_ e2.symm)
    exact bandMuinv_agree (fun G' hG' => h.H (ib + b) (by omega) G' (by rw [hN]; exact hG')) G (by rw [← hN]; exact hG)
  obtain ⟨W, WR, e1, e2, e3⟩ := ucross_agree hw hd hs hn u (vr.num ib) (fun i => bufs ib (i + 1)) (fun i => bufsR ib (i + 1)) (W0 := W0) (W0R := W0R) hX
  refine ⟨⟨if vr.same then (vr.general P).block s.H s.Hb (bufs ib 0) ib else s.H, (vr.general P).block s.H s.Hb (bufs ib 0) ib,
    fun b => if ib ≤ b ∧ b < ib + vr.num ib then
      xtyDiagReal ((vr.general P).block s.H s.Hb (bufs ib 0) ib) W (P.data.N * 2) (vr.num ib) (b - ib) else s.gv b⟩,
    ⟨if vr.same then vr.block w sR.H sR.Hb (bufsR ib 0) ib else sR.H, vr.block w sR.H sR.Hb (bufsR ib 0) ib,
    fun b => if ib ≤ b ∧ b < ib + vr.num ib then
      xtyDiagRealR (vr.block w sR.H sR.Hb (bufsR ib 0) ib) WR (vr.d.N * 2) (vr.num ib) (b - ib) else sR.gv b⟩, ?_, ?_, ?_⟩
  · unfold blockStep
    have : ucrossOperator (vr.general P).d u ((vr.general P).num ib) (fun i => bufs ib (i + 1)) ((vr.general P).block s.H s.Hb (bufs ib 0) ib) W0 = some W :=
      e1
    simp only [this, Option.map_some]
    rfl
  · unfold blockStepR
    simp only [e2, Option.map_some]
  · constructor
    · intro b hb G hG
      by_cases hh : vr.same = true
      · obtain ⟨h0, h1⟩ := hsm hh
        have hp : vr.num ib = vr.p := by unfold VDataR.num; omega
        have := hX b (by omega) G hG
        simp only [hh, if_true]
        rw [hp] at this
        exact this
      · simp only [hh]
        exact h.H b hb G hG
    · funext b
      by_cases hb : ib ≤ b ∧ b < ib + vr.num ib
      · simp only [if_pos hb]
        exact e3 (b - ib) (by omega)
      · simp only [if_neg hb]
        exact congrFun h.gv b

theorem blockLoop_agree (hw : IsC2R ⟨P.nx, P.ny, P.nz⟩ w) (hd : Represents vr.d P) (hs : Symmetric P) (hn : 0 < vr.d.nfb) (ha : 0 < vr.alloc)
    (hsm : vr.same = true → vr.alloc = vr.p) (u : V3 ℝ) (bufs : ℕ → ℕ → ℕ → ℂ) (bufsR : ℕ → ℕ → ℕ → ℝ) (W0 : ℕ → ℂ) (W0R : ℕ → ℝ) :
    ∀ (k ib : ℕ) (s : VState) (sR : VStateR), vr.p - ib ≤ k → (vr.same = true → ib = 0 ∨ vr.p ≤ ib) → Agree vr s sR →
    ∃ s' sR', (blockStarts vr.alloc vr.p ib).foldlM (blockStep (vr.general P) u bufs W0) s = some s' ∧
      (blockStarts vr.alloc vr.p ib).foldlM (blockStepR w vr u bufsR W0R) sR = some sR' ∧ Agree vr s' sR' := by
  intro k
  induction k with
  | zero =>
    intro ib s sR hk _ h
    rw [blockStarts, if_neg (by omega)]
    exact ⟨s, sR, rfl, rfl, h⟩
  | succ k ih =>
    intro ib s sR hk h0 h
    by_cases hib : ib < vr.p
    · rw [blockStarts, if_pos ⟨hib, ha⟩, List.foldlM_cons, List.foldlM_cons]
      obtain ⟨s1, sR1, e1, e2, h1⟩ := blockStep_agree hw hd hs hn u bufs bufsR W0 W0R h hib
        (fun hh => ⟨by rcases h0 hh with h | h <;> omega, hsm hh⟩)
      rw [e1, e2]
      exact ih (ib + vr.alloc) s1 sR1 (by omega) (fun hh => Or.inr (by have := hsm hh; omega)) h1
    · rw [blockStarts, if_neg (by omega)]
      exact ⟨s, sR, rfl, rfl, h⟩

theorem component_agree (hw : IsC2R ⟨P.nx, P.ny, P.nz⟩ w) (hd : Represents vr.d P) (hs : Symmetric P) (hn : 0 < vr.d.nfb) (ha : 0 < vr.alloc)
    (hsm : vr.same = true → vr.alloc = vr.p) (u : V3 ℝ) (bufs : ℕ → ℕ → ℕ → ℂ) (bufsR : ℕ → ℕ → ℕ → ℝ) (W0 Hb H : ℕ → ℂ) (W0R HbR HR : ℕ → ℝ)
    (junk : ℕ → ℝ) (h : ∀ b < vr.p, ∀ G < vr.d.N, band vr.p H b G = cband vr.p HR b G) :
    ∃ H' HR' gv, component (vr.general P) u bufs W0 Hb H junk = some (H', gv) ∧ componentR w vr u bufsR W0R HbR HR junk = some (HR', gv) ∧
      ∀ b < vr.p, ∀ G < vr.d.N, band vr.p H' b G = cband vr.p HR' b G := by
  obtain ⟨s, sR, e1, e2, h1⟩ := blockLoop_agree hw hd hs hn ha hsm u bufs bufsR W0 W0R vr.p 0 ⟨H, Hb, junk⟩ ⟨HR, HbR, junk⟩ (by omega)
    (fun _ => Or.inl rfl) ⟨h, rfl⟩
  refine ⟨s.H, sR.H, fun b => scaleByFreq vr.neg (vr.freqs b) (s.gv b), ?_, ?_, h1.H⟩
  · unfold component
    have : ¬((vr.general P).alloc = 0 ∧ 0 < (vr.general P).p) := by show ¬(vr.alloc = 0 ∧ 0 < vr.p); omega
    rw [if_neg this]
    have e1' : (blockStarts (vr.general P).alloc (vr.general P).p 0).foldlM (blockStep (vr.general P) u bufs W0) ⟨H, Hb, junk⟩ = some s := e1
    rw [e1']
    rfl
  · unfold componentR
    rw [if_neg (by omega), e2, Option.map_some, h1.gv]

/-! ### The properties -/

/-- C111 (group velocity of a band).  `compute-1-group-velocity-component` returns the same number in the two builds, for every direction, every
band and whatever the work arrays contained. -/
theorem C111_velocity1 (hw : IsC2R ⟨P.nx, P.ny, P.nz⟩ w) (hd : Represents vr.d P) (hs : Symmetric P) (hn : 0 < vr.d.nfb) (u : V3 ℝ)
    (bufs : ℕ → ℕ → ℂ) (bufsR : ℕ → ℕ → ℝ) (W0 W1 : ℕ → ℂ) (W0R W1R HR : ℕ → ℝ) (b : ℕ) :
    ∃ v : ℝ, component1 ⟨P.data, vr.p, vr.alloc, vr.same, vr.neg, vr.freqs⟩ u bufs W0 W1 (asComplex HR) b = some v ∧
      component1R w vr u bufsR W0R W1R HR b = some v := by
  have hN := N_eq hd
  have hX : ∀ j < 1, ∀ G < vr.d.N, band 1 (HFromB P.data false vr.p 1 (asComplex HR) W1 (bufs 0) b 0 1) j G =
      cband 1 (HFromBR w vr.d false vr.p 1 HR W1R (bufsR 0) b 0 1) j G := by
    intro j hj G hG
    have e1 := HFromB_apply P.data false (pin := vr.p) (pout := 1) (asComplex HR) W1 (bufs 0) (bstart := b) (hstart := 0) (num := 1) (by omega) (by simp)
      G (by rw [← hN]; exact hG) j hj
    have e2 := HFromBR_apply hw hd hs false (pin := vr.p) (pout := 1) HR W1R (bufsR 0) (bstart := b) (hstart := 0) (num := 1) (by omega) (by simp)
      G hG j hj
    rw [Nat.zero_add] at e1 e2
    exact e1.trans e2.symm
  obtain ⟨W, WR, e1, e2, e3⟩ := ucross_agree hw hd hs hn u 1 (fun i => bufs (i + 1)) (fun i => bufsR (i + 1)) (W0 := W0) (W0R := W0R) hX
  refine ⟨scaleByFreq vr.neg (vr.freqs b) (xtyDiagReal (HFromB P.data false vr.p 1 (asComplex HR) W1 (bufs 0) b 0 1) W (P.data.N * 2) 1 0), ?_, ?_⟩
  · unfold component1
    simp only [e1, Option.map_some]
  · unfold component1R
    simp only [e2, Option.map_some]
    rw [e3 0 (by omega)]

/-- C111 (group velocities of all bands).  `compute-group-velocities` returns, in the two builds, the same vectors and leaves the same amplitudes,
also where it changes them (C67); likewise `compute-group-velocity-component`.  `Hblock` is the array `H` itself only if it has room for all bands
(mpb/mpb.c:491-495). -/
theorem C111_velocities (hw : IsC2R ⟨P.nx, P.ny, P.nz⟩ w) (hd : Represents vr.d P) (hs : Symmetric P) (hn : 0 < vr.d.nfb) (ha : 0 < vr.alloc)
    (hsm : vr.same = true → vr.alloc = vr.p) (ux uy uz : V3 ℝ) (bufs : ℕ → ℕ → ℕ → ℕ → ℂ) (bufsR : ℕ → ℕ → ℕ → ℕ → ℝ) (W0 Hb : ℕ → ℕ → ℂ)
    (W0R HbR : ℕ → ℕ → ℝ) (HR : ℕ → ℝ) (junk : ℕ → ℕ → ℝ) :
    (∃ H' HR' gv, component ⟨P.data, vr.p, vr.alloc, vr.same, vr.neg, vr.freqs⟩ ux (bufs 0) (W0 0) (Hb 0) (asComplex HR) (junk 0) = some (H', gv) ∧
      componentR w vr ux (bufsR 0) (W0R 0) (HbR 0) HR (junk 0) = some (HR', gv) ∧ ∀ a < vr.d.N * 2 * vr.p, H' a = HR' a) ∧
    ∃ H' HR' gv, groupVelocities ⟨P.data, vr.p, vr.alloc, vr.same, vr.neg, vr.freqs⟩ ux uy uz bufs W0 Hb (asComplex HR) junk = some (H', gv) ∧
      groupVelocitiesR w vr ux uy uz bufsR W0R HbR HR junk = some (HR', gv) ∧ ∀ a < vr.d.N * 2 * vr.p, H' a = HR' a := by
  obtain ⟨H1, R1, g1, a1, b1, c1⟩ := component_agree hw hd hs hn ha hsm ux (bufs 0) (bufsR 0) (W0 0) (Hb 0) (asComplex HR) (W0R 0) (HbR 0) HR (junk 0)
    (fun b _ G _ => congrFun (band_asComplex vr.p HR b) G)
  obtain ⟨H2, R2, g2, a2, b2, c2⟩ := component_agree hw hd hs hn ha hsm uy (bufs 1) (bufsR 1) (W0 1) (Hb 1) H1 (W0R 1) (HbR 1) R1 (junk 1) c1
  obtain ⟨H3, R3, g3, a3, b3, c3⟩ := component_agree hw hd hs hn ha hsm uz (bufs 2) (bufsR 2) (W0 2) (Hb 2) H2 (W0R 2) (HbR 2) R2 (junk 2) c2
  unfold VDataR.general at a1 a2 a3
  refine ⟨⟨H1, R1, g1, a1, b1, fun a ha' => eq_of_bands c1 ha'⟩, H3, R3, fun b => ⟨g1 b, g2 b, g3 b⟩, ?_, ?_, fun a ha' => eq_of_bands c3 ha'⟩
  · unfold groupVelocities
    simp only [a1, a2, a3, Option.bind_eq_bind, Option.bind_some]
    rfl
  · unfold groupVelocitiesR
    simp only [b1, b2, b3, Option.bind_eq_bind, Option.bind_some]
    rfl

end

/-- Glass, two bands in blocks of one. -/
example (u : V3 ℝ) (bufs : ℕ → ℕ → ℂ) (bufsR : ℕ → ℕ → ℝ) (W0 W1 : ℕ → ℂ) (W0R W1R HR : ℕ → ℝ) :
    ∃ v : ℝ, component1 ⟨exGlass.data, 2, 1, false, false, fun _ => 1 / 4⟩ u bufs W0 W1 (asComplex HR) 1 = some v ∧
      component1R (refFftw 4 3 2 fun _ a => a) ⟨exGlassR, 2, 1, false, false, fun _ => 1 / 4⟩ u bufsR W0R W1R HR 1 = some v :=
  C111_velocity1 (vr := ⟨exGlassR, 2, 1, false, false, fun _ => 1 / 4⟩) exGlass_ok.2.2 exGlass_ok.1 exGlass_ok.2.1 (by show 0 < 1; norm_num)
    u bufs bufsR W0 W1 W0R W1R HR 1

end Mpb.RealBuild

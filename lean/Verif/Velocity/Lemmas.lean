import Verif.Velocity.Model
import Verif.Maxwell.OperatorProps

/-! # Lemmas for the group velocity: memory -/

namespace Mpb.Velocity
open Mpb.Maxwell Mpb.Maxwell.Spec

/-- `chain_apply` with different matrices for input and output. -/
theorem chain_apply' (ex : KData → ℂ → ℂ → V3 ℂ) (co : KData → V3 ℂ → ℝ → ℂ × ℂ) (d : OpData) (M : ℕ → HMat) (s : ℝ) {pin pout : ℕ}
    (Hin buf Hout : ℕ → ℂ) {bstart hstart num : ℕ} (hp : hstart + num ≤ pout) :
    let f := computeFft d.Wf d.N (num * 3) (fillFft ex d.od d.ld d.kpg pin Hin buf bstart num) buf
    let e := eFromD d.N num M f
    let R := storeBands co d.od d.ld d.kpg pout (computeFft d.Wb d.N (num * 3) e e) Hout hstart num s
    ∀ G < d.N, ∀ b < num, band pout R (hstart + b) G = colOp ex co d M s (band pin Hin (bstart + b)) G := by
  intro f e R
  obtain ⟨h1, h2⟩ := storeBands_apply co (od := d.od) (ld := d.ld) d.kpg (computeFft d.Wb d.N (num * 3) e e) Hout hp s
  refine fun G hG b hb => ?_
  refine (h1 G hG b hb).trans ?_
  have hf : ∀ r < d.N, ∀ c < 3, f (3 * (r * num + b) + c) =
      (transform d.Wf d.N (fun G => ex (d.kpg G) (band pin Hin (bstart + b) G).1 (band pin Hin (bstart + b) G).2) r).get c := by
    intro r hr c hc
    refine (computeFft_apply d.Wf _ _ hr hb hc).trans ?_
    have : ∀ j ∈ Finset.range d.N, d.Wf r j * fillFft ex d.od d.ld d.kpg pin Hin buf bstart num (3 * (j * num + b) + c) =
        d.Wf r j * (ex (d.kpg j) (band pin Hin (bstart + b) j).1 (band pin Hin (bstart + b) j).2).get c := by
      intro j hj
      rw [fillFft_apply ex d.kpg pin Hin buf bstart (Finset.mem_range.1 hj) hb hc]
    rw [Finset.sum_congr rfl this]
    interval_cases c <;> rfl
  have he : ∀ r < d.N, ∀ c < 3, e (3 * (r * num + b) + c) = ((M r).mulVec
      (transform d.Wf d.N (fun G => ex (d.kpg G) (band pin Hin (bstart + b) G).1 (band pin Hin (bstart + b) G).2) r)).get c := by
    intro r hr c hc
    refine (eFromD_apply M f hr hb c hc).trans ?_
    rw [hf r hr 0 (by omega), hf r hr 1 (by omega), hf r hr 2 (by omega)]
    rfl
  have hg : ∀ c < 3, computeFft d.Wb d.N (num * 3) e e (3 * (G * num + b) + c) = (transform d.Wb d.N (fun r => (M r).mulVec
      (transform d.Wf d.N (fun G => ex (d.kpg G) (band pin Hin (bstart + b) G).1 (band pin Hin (bstart + b) G).2) r)) G).get c := by
    intro c hc
    refine (computeFft_apply d.Wb _ _ hG hb hc).trans ?_
    rw [Finset.sum_congr rfl (fun j hj => by rw [he j (Finset.mem_range.1 hj) c hc])]
    interval_cases c <;> rfl
  rw [hg 0 (by omega), hg 1 (by omega), hg 2 (by omega)]
  rfl

theorem copyCols_apply {N px py : ℕ} (Y X : ℕ → ℂ) {ix iy num : ℕ} (hx : ix + num ≤ px) :
    ∀ G < N, ∀ b < num, band px (copyCols (N * 2) px py Y X ix iy num) (ix + b) G = band py Y (iy + b) G := by
  intro G hG b hb
  have key : ∀ i < N * 2, copyCols (N * 2) px py Y X ix iy num (i * px + (ix + b)) = Y (i * py + (iy + b)) := by
    intro i hi
    have e : i * px + (ix + b) = i * px + b + ix := by ring
    have e' : i * py + (iy + b) = i * py + b + iy := by ring
    rw [e, e']
    refine writes_map_apply (addr := fun t : ℕ × ℕ => t.1 * px + t.2 + ix) (val := fun t => Y (t.1 * py + t.2 + iy))
      (i := (i, b)) (mem_loop2.2 ⟨hi, hb⟩) (fun j hj e => ?_)
    obtain ⟨j1, j2⟩ := j
    have hj' := mem_loop2.1 hj
    simp only at e hj' ⊢
    obtain ⟨rfl, rfl⟩ := rowMajor_inj (q := j1) (r := j2) (q' := i) (r' := b) (show j2 < px by omega) (by omega) (by omega)
    rfl
  exact Prod.ext (key _ (by omega)) (key _ (by omega))

/-- Every band of the result of `maxwell_compute_H_from_B` is the inverse permeability applied to its band of the input. -/
theorem HFromB_apply (d : OpData) (same : Bool) {pin pout : ℕ} (Bin Hout buf : ℕ → ℂ) {bstart hstart num : ℕ}
    (hp : hstart + num ≤ pout) (hs : same = true → Hout = Bin ∧ pin = pout ∧ bstart = hstart) :
    ∀ G < d.N, ∀ b < num, band pout (HFromB d same pin pout Bin Hout buf bstart hstart num) (hstart + b) G =
      bandMuinv d (band pin Bin (bstart + b)) G := by
  intro G hG b hb
  unfold HFromB bandMuinv
  cases hmu : d.muInv with
  | none =>
    simp only
    cases hsame : same with
    | true =>
      obtain ⟨rfl, rfl, rfl⟩ := hs hsame
      rfl
    | false => exact copyCols_apply Bin Hout hp G hG b hb
  | some mu => exact chain_apply' t2c c2t d mu (1 / (d.N : ℝ)) Bin buf Hout hp G hG b hb

theorem sum_range_two (f : ℕ → ℝ) (N : ℕ) :
    ∑ i ∈ Finset.range (N * 2), f i = ∑ G ∈ Finset.range N, (f (G * 2 + 0) + f (G * 2 + 1)) := by
  induction N with
  | zero => simp
  | succ N ih =>
    rw [show (N + 1) * 2 = N * 2 + 1 + 1 by ring, Finset.sum_range_succ, Finset.sum_range_succ, Finset.sum_range_succ, ih]
    simp only [Nat.add_zero]; ring

theorem xtyDiagReal_eq (X Y : ℕ → ℂ) (N p j : ℕ) :
    xtyDiagReal X Y (N * 2) p j = (Spec.inner N (band p X j) (band p Y j)).re := by
  unfold xtyDiagReal Spec.inner
  rw [sum_range_two, Complex.re_sum]
  refine Finset.sum_congr rfl (fun G _ => ?_)
  simp only [hermT, band, Complex.add_re, Complex.mul_re, Complex.conj_re, Complex.conj_im]
  ring

theorem inner_congr {N : ℕ} {x x' y y' : ℕ → ℂ × ℂ} (hx : ∀ G < N, x G = x' G) (hy : ∀ G < N, y G = y' G) :
    Spec.inner N x y = Spec.inner N x' y' := by
  unfold Spec.inner
  exact Finset.sum_congr rfl (fun G hG => by rw [hx G (Finset.mem_range.1 hG), hy G (Finset.mem_range.1 hG)])

/-- The number computed for one column of fields. -/
noncomputable def bandForm (d : OpData) (u : V3 ℝ) (h : ℕ → ℂ × ℂ) : ℝ :=
  (Spec.inner d.N h (colOp (ucrossT2c u) crossC2t d d.epsInv (-1 / (d.N : ℝ)) h)).re

theorem bandForm_congr {d : OpData} {u : V3 ℝ} {h h' : ℕ → ℂ × ℂ} (hh : ∀ G < d.N, h G = h' G) : bandForm d u h = bandForm d u h' := by
  unfold bandForm
  rw [inner_congr hh (fun G _ => colOp_congr _ _ _ _ _ hh G)]

theorem diag_of_ucross {d : OpData} (hn : 0 < d.nfb) (u : V3 ℝ) (p : ℕ) (bufs : ℕ → ℕ → ℂ) (X W0 : ℕ → ℂ) :
    ∃ Wr, ucrossOperator d u p bufs X W0 = some Wr ∧ ∀ j < p, xtyDiagReal X Wr (d.N * 2) p j = bandForm d u (band p X j) := by
  obtain ⟨R, hR, hb, -⟩ := C04_ucross_bands d u p hn bufs X W0
  refine ⟨R, hR, fun j hj => ?_⟩
  rw [xtyDiagReal_eq, bandForm, inner_congr (fun _ _ => rfl) (fun G hG => hb j hj G hG)]

theorem component1_eq (v : VData) (hn : 0 < v.d.nfb) (u : V3 ℝ) (bufs : ℕ → ℕ → ℂ) (W0 W1 H : ℕ → ℂ) (ib : ℕ) :
    component1 v u bufs W0 W1 H ib = some (scaleByFreq v.neg (v.freqs ib) (bandForm v.d u (bandMuinv v.d (band v.p H ib)))) := by
  unfold component1
  obtain ⟨Wr, hW, hd⟩ := diag_of_ucross hn u 1 (fun i => bufs (i + 1)) (HFromB v.d false v.p 1 H W1 (bufs 0) ib 0 1) W0
  simp only [hW, Option.map_some]
  rw [hd 0 (by omega), bandForm_congr (fun G hG => HFromB_apply v.d false H W1 (bufs 0) (by omega) (by simp) G hG 0 (by omega))]
  rfl

theorem blockLoop (v : VData) (hn : 0 < v.d.nfb) (ha : 0 < v.alloc) (hs : v.same = true → v.alloc = v.p ∧ v.d.muInv = none)
    (u : V3 ℝ) (bufs : ℕ → ℕ → ℕ → ℂ) (W0 H : ℕ → ℂ) : ∀ (k ib : ℕ) (s : VState), v.p - ib ≤ k → s.H = H →
    (v.same = true → ib = 0 ∨ v.p ≤ ib) →
    ∃ s', (blockStarts v.alloc v.p ib).foldlM (blockStep v u bufs W0) s = some s' ∧ s'.H = H ∧
      (∀ b, ib ≤ b → b < v.p → s'.gv b = bandForm v.d u (bandMuinv v.d (band v.p H b))) ∧ ∀ b < ib, s'.gv b = s.gv b := by
  intro k
  induction k with
  | zero =>
    intro ib s hk hH _
    rw [blockStarts, if_neg (by omega)]
    exact ⟨s, rfl, hH, fun b h1 h2 => by omega, fun _ _ => rfl⟩
  | succ k ih =>
    intro ib s hk hH hsame
    by_cases hib : ib < v.p
    · rw [blockStarts, if_pos ⟨hib, ha⟩, List.foldlM_cons]
      have hnum : ib + v.num ib ≤ v.p := by unfold VData.num; omega
      have hcov : ∀ b, b < v.p → b < ib + v.alloc → b < ib + v.num ib := by intro b h1 h2; unfold VData.num; omega
      obtain ⟨Wr, hWr, hd⟩ := diag_of_ucross hn u (v.num ib) (fun i => bufs ib (i + 1)) (v.block s.H s.Hb (bufs ib 0) ib) W0
      have hblk : ∀ G < v.d.N, ∀ b < v.num ib, band (v.num ib) (v.block s.H s.Hb (bufs ib 0) ib) (0 + b) G =
          bandMuinv v.d (band v.p H (ib + b)) G := by
        unfold VData.block
        rw [hH]
        refine HFromB_apply v.d v.same _ _ _ (by omega) (fun hsm => ?_)
        have h0 : ib = 0 := by rcases hsame hsm with h | h <;> omega
        refine ⟨by rw [if_pos hsm], ?_, h0⟩
        unfold VData.num; have := (hs hsm).1; omega
      have hHn : (if v.same then v.block s.H s.Hb (bufs ib 0) ib else s.H) = H := by
        cases hsm : v.same with
        | false => exact hH
        | true =>
          have := (hs hsm).2
          simp only [if_true]
          unfold VData.block HFromB
          rw [this, hsm]
          exact hH
      have hstep : blockStep v u bufs W0 s ib = some ⟨if v.same then v.block s.H s.Hb (bufs ib 0) ib else s.H,
          v.block s.H s.Hb (bufs ib 0) ib, fun b => if ib ≤ b ∧ b < ib + v.num ib then
            xtyDiagReal (v.block s.H s.Hb (bufs ib 0) ib) Wr (v.d.N * 2) (v.num ib) (b - ib) else s.gv b⟩ := by
        unfold blockStep
        simp only [hWr, Option.map_some]
      rw [hstep]
      obtain ⟨s', e, h1, h2, h3⟩ := ih (ib + v.alloc) ⟨if v.same then v.block s.H s.Hb (bufs ib 0) ib else s.H,
          v.block s.H s.Hb (bufs ib 0) ib, fun b => if ib ≤ b ∧ b < ib + v.num ib then
            xtyDiagReal (v.block s.H s.Hb (bufs ib 0) ib) Wr (v.d.N * 2) (v.num ib) (b - ib) else s.gv b⟩ (by omega) hHn (fun hsm => by have := (hs hsm).1; right; omega)
      refine ⟨s', e, h1, fun b hb1 hb2 => ?_, fun b hb => ?_⟩
      · by_cases hb : b < ib + v.alloc
        · rw [h3 b hb]
          simp only
          rw [if_pos ⟨hb1, hcov b hb2 hb⟩, hd _ (by have := hcov b hb2 hb; omega)]
          refine bandForm_congr (fun G hG => ?_)
          have := hblk G hG (b - ib) (by have := hcov b hb2 hb; omega)
          rw [Nat.zero_add, show ib + (b - ib) = b by omega] at this
          exact this
        · exact h2 b (by omega) hb2
      · rw [h3 b (by omega)]
        simp only
        rw [if_neg (by omega)]
    · rw [blockStarts, if_neg (by omega)]
      exact ⟨s, rfl, hH, fun b h1 h2 => by omega, fun _ _ => rfl⟩

theorem component_eq (v : VData) (hn : 0 < v.d.nfb) (ha : 0 < v.alloc) (hs : v.same = true → v.alloc = v.p ∧ v.d.muInv = none)
    (u : V3 ℝ) (bufs : ℕ → ℕ → ℕ → ℂ) (W0 Hb H : ℕ → ℂ) (junk : ℕ → ℝ) :
    ∃ gv, component v u bufs W0 Hb H junk = some (H, gv) ∧
      ∀ b < v.p, gv b = scaleByFreq v.neg (v.freqs b) (bandForm v.d u (bandMuinv v.d (band v.p H b))) := by
  obtain ⟨s', e, h1, h2, -⟩ := blockLoop v hn ha hs u bufs W0 H v.p 0 ⟨H, Hb, junk⟩ (by omega) rfl (fun _ => Or.inl rfl)
  unfold component
  rw [if_neg (by omega), e]
  refine ⟨fun b => scaleByFreq v.neg (v.freqs b) (s'.gv b), by rw [Option.map_some, h1], fun b hb => ?_⟩
  simp only
  rw [h2 b (by omega) hb]

end Mpb.Velocity

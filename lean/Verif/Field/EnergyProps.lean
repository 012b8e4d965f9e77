import Verif.Field.EnergyModel
import Verif.Field.SumProps
import Verif.Maxwell.OperatorProps
import Mathlib.Algebra.BigOperators.Field

/-!
# Properties C42 (in-place energy density) and C47 (normalisation of the loaded fields)
-/

namespace Mpb.Field
open Mpb.Maxwell Mpb.Maxwell.Spec

/-! ## C42 -/

/-- Specification: the energy density at point `i` of the field `F`: `Re (F(i)* · (T F)(i))`. -/
noncomputable def density (T : ℕ → V3 ℂ → V3 ℂ) (F : ℕ → V3 ℂ) (i : ℕ) : ℝ := (herm (F i) (T i (F i))).re

/-- The contribution of one component. -/
def part (T : ℕ → V3 ℂ → V3 ℂ) (F : ℕ → V3 ℂ) (c : Fin 6) (i : ℕ) : ℝ := compSqr (T i (F i)) (F i) c

theorem compSqr_sum (f v : V3 ℂ) :
    compSqr f v 0 + compSqr f v 1 + compSqr f v 2 + compSqr f v 3 + compSqr f v 4 + compSqr f v 5 = (herm v f).re := by
  simp only [compSqr, herm, Complex.add_re, Complex.mul_re, Complex.conj_re, Complex.conj_im]
  ring

/-- The sum over a range with doubled points. -/
def rangeSum (dbl : ℕ → Bool) (N : ℕ) (e : ℕ → ℝ) : ℝ :=
  (List.range N).foldl (fun acc i => if dbl i then acc + e i + e i else acc + e i) 0

theorem rangeSum_serial (S : Shape) (N : ℕ) (e : ℕ → ℝ) : rangeSum (dblSerial S) N e = flatSum S N e := rfl

theorem rangeSum_mpi (S : Shape) (q : Slab) (N : ℕ) (e : ℕ → ℝ) : rangeSum (dblMpi S q) N e = flatSumMpi S q N e := rfl

theorem energyLoop_inv (T : ℕ → V3 ℂ → V3 ℂ) (dbl : ℕ → Bool) (mem : ℕ → ℝ) (N : ℕ) :
    (∀ a, (energyLoop T dbl N mem).mem a = if a < N then density T (cvec mem) a else mem a) ∧
      (energyLoop T dbl N mem).energySum = rangeSum dbl N (density T (cvec mem)) ∧
      ∀ c, (energyLoop T dbl N mem).compSum c = rangeSum dbl N (part T (cvec mem) c) := by
  induction N with
  | zero => exact ⟨fun a => by simp [energyLoop], rfl, fun c => rfl⟩
  | succ n ih =>
    obtain ⟨h1, h2, h3⟩ := ih
    have hs : energyLoop T dbl (n + 1) mem = energyStep T dbl (energyLoop T dbl n mem) n := by
      unfold energyLoop
      rw [List.range_succ, List.foldl_append]; rfl
    have hv : cvec (energyLoop T dbl n mem).mem n = cvec mem n := by
      unfold cvec cplx
      simp only [h1]
      rw [if_neg (by omega), if_neg (by omega), if_neg (by omega), if_neg (by omega), if_neg (by omega), if_neg (by omega)]
    have hr : ∀ e : ℕ → ℝ, rangeSum dbl (n + 1) e = if dbl n then rangeSum dbl n e + e n + e n else rangeSum dbl n e + e n := by
      intro e
      unfold rangeSum
      rw [List.range_succ, List.foldl_append]; rfl
    rw [hs]
    unfold energyStep
    simp only [hv, compSqr_sum]
    have hmem : ∀ a, Function.update (energyLoop T dbl n mem).mem n ((herm (cvec mem n) (T n (cvec mem n))).re) a =
        if a < n + 1 then density T (cvec mem) a else mem a := by
      intro a
      by_cases ha : a = n
      · subst ha
        rw [Function.update_self, if_pos (by omega)]; rfl
      · rw [Function.update_of_ne ha, h1]
        by_cases hlt : a < n
        · rw [if_pos hlt, if_pos (by omega)]
        · rw [if_neg hlt, if_neg (by omega)]
    refine ⟨?_, ?_, ?_⟩
    · split_ifs with h
      · exact hmem
      · exact hmem
    · rw [hr]
      split_ifs with h
      · simp only [Function.update_self]; rw [h2]; rfl
      · simp only; rw [h2]; rfl
    · intro c
      rw [hr]
      split_ifs with h
      · simp only; rw [h3]; rfl
      · simp only; rw [h3]; rfl

/-- **C42**.  For every number of points `N`, every medium, every field in memory and either build: although the density is
written over the field, every density value is the one of the *original* field at that point; nothing beyond the `N` values is
overwritten; and the total and the six component sums are those of the original field. -/
theorem C42_in_place (T : ℕ → V3 ℂ → V3 ℂ) (dbl : ℕ → Bool) (N : ℕ) (mem : ℕ → ℝ) :
    (∀ i < N, (energyLoop T dbl N mem).mem i = (herm (cvec mem i) (T i (cvec mem i))).re) ∧
      (∀ a ≥ N, (energyLoop T dbl N mem).mem a = mem a) ∧
      (energyLoop T dbl N mem).energySum = rangeSum dbl N (fun i => (herm (cvec mem i) (T i (cvec mem i))).re) ∧
      ∀ c, (energyLoop T dbl N mem).compSum c = rangeSum dbl N (fun i => compSqr (T i (cvec mem i)) (cvec mem i) c) := by
  obtain ⟨h1, h2, h3⟩ := energyLoop_inv T dbl mem N
  refine ⟨fun i hi => by rw [h1, if_pos hi]; rfl, fun a ha => by rw [h1, if_neg (by omega)], h2, h3⟩

/-- **C42/C41**.  The total energy returned by `compute-field-energy` is `Vol/N` times the sum over all points of the cell of
the density of the original field, and the fractions of the components are those of the whole cell too and sum to one. -/
theorem C42_total {S : Shape} (hS : S.Ok) (hP : Padded S) (T : ℕ → V3 ℂ → V3 ℂ) (mem : ℕ → ℝ) (HN : ℕ) (Vol : ℝ)
    (E : ℕ × ℕ × ℕ → ℝ) (Q : Fin 6 → ℕ × ℕ × ℕ → ℝ)
    (hE : Stored S (fun i => (herm (cvec mem i) (T i (cvec mem i))).re) E) (hEs : Even3 S E)
    (hQ : ∀ c, Stored S (fun i => compSqr (T i (cvec mem i)) (cvec mem i) c) (Q c)) (hQs : ∀ c, Even3 S (Q c)) :
    (fieldEnergy T (dblSerial S) S.outSize HN Vol mem).1 = cellSum S E * Vol / HN ∧
      (∀ c, (fieldEnergy T (dblSerial S) S.outSize HN Vol mem).2 c =
        cellSum S (Q c) / (if cellSum S E = 0 then 1 else cellSum S E)) ∧
      (cellSum S E ≠ 0 → ∑ c, (fieldEnergy T (dblSerial S) S.outSize HN Vol mem).2 c = 1) := by
  obtain ⟨-, -, h3, h4⟩ := C42_in_place T (dblSerial S) S.outSize mem
  have e1 : (energyLoop T (dblSerial S) S.outSize mem).energySum = cellSum S E := by
    rw [h3, rangeSum_serial, C41_flat hS hP hE hEs]
  have e2 : ∀ c, (energyLoop T (dblSerial S) S.outSize mem).compSum c = cellSum S (Q c) := by
    intro c
    rw [h4, rangeSum_serial, C41_flat hS hP (hQ c) (hQs c)]
  have hsum : ∀ (N : ℕ) (dbl : ℕ → Bool) (f : Fin 6 → ℕ → ℝ), ∑ c, rangeSum dbl N (f c) = rangeSum dbl N (fun i => ∑ c, f c i) := by
    intro N dbl f
    induction N with
    | zero => simp [rangeSum]
    | succ n ih =>
      have hr : ∀ e : ℕ → ℝ, rangeSum dbl (n + 1) e = if dbl n then rangeSum dbl n e + e n + e n else rangeSum dbl n e + e n := by
        intro e
        unfold rangeSum
        rw [List.range_succ, List.foldl_append]; rfl
      simp only [hr]
      split_ifs
      · rw [Finset.sum_add_distrib, Finset.sum_add_distrib, ih]
      · rw [Finset.sum_add_distrib, ih]
  unfold fieldEnergy
  simp only [e1, e2]
  refine ⟨trivial, fun _ => trivial, fun hne => ?_⟩
  rw [← Finset.sum_div, if_neg hne, div_eq_one_iff_eq hne]
  have : ∀ c, cellSum S (Q c) = rangeSum (dblSerial S) S.outSize (fun i => compSqr (T i (cvec mem i)) (cvec mem i) c) :=
    fun c => by rw [← e2, h4]
  simp only [this, hsum]
  rw [← e1, h3]
  congr 1
  funext i
  rw [← compSqr_sum, Fin.sum_univ_six]

/-- Non-vacuity: one point with `D = (2, i, 0)` in vacuum: density 5 is stored in place of the real part of the first
component. -/
example : (energyLoop (fun _ v => v) (fun _ => false) 1 (fun a => if a = 0 then 2 else if a = 3 then 1 else 0)).mem 0 = 5 := by
  rw [(C42_in_place _ _ _ _).1 0 (by norm_num)]
  simp [cvec, cplx, herm]
  norm_num

/-! ## C47 -/

namespace Spec

/-- The two FFT directions are inverse up to the factor `N` (Parseval): `Σ_r conj(W r G) W r G' = N δ`. -/
def Parseval (d : OpData) : Prop := ∀ G < d.N, ∀ G' < d.N,
  ∑ r ∈ Finset.range d.N, (starRingEnd ℂ) (d.Wf r G) * d.Wf r G' = if G = G' then (d.N : ℂ) else 0

/-- Band amplitudes `x` are a normalised eigenvector with eigenvalue `lam = ω²`: `A x = lam μ⁻¹ x` and `⟨x, μ⁻¹ x⟩ = 1`
(this is what the eigensolver computes: with a permeability, B is the primary field). -/
structure EigenBand (d : OpData) (x : ℕ → ℂ × ℂ) (lam : ℝ) : Prop where
  eig : ∀ G < d.N, bandMaxwell d x G = (lam * (bandMuinv d x G).1, lam * (bandMuinv d x G).2)
  norm : inner d.N x (bandMuinv d x) = 1

end Spec
open Spec

theorem cvec_toReals (F : ℕ → ℂ) (i : ℕ) : cvec (toReals F) i = ⟨F (3 * i), F (3 * i + 1), F (3 * i + 2)⟩ := by
  have h : ∀ j, cplx (toReals F) j = F j := by
    intro j
    unfold cplx toReals
    rw [if_pos (by omega), if_neg (by omega), Nat.mul_div_cancel_left _ Nat.two_pos,
      (by omega : (2 * j + 1) / 2 = j)]
  unfold cvec
  rw [h, h, h]

/-- The field before scaling: expand one band and transform. -/
theorem fillTransform (ex : KData → ℂ → ℂ → V3 ℂ) (d : OpData) (p : ℕ) (Hin buf : ℕ → ℂ) (b : ℕ) {r c : ℕ} (hr : r < d.N) (hc : c < 3) :
    computeFft d.Wf d.N (1 * 3) (fillFft ex d.od d.ld d.kpg p Hin buf b 1) buf (3 * r + c) =
      (transform d.Wf d.N (fun G => ex (d.kpg G) (band p Hin b G).1 (band p Hin b G).2) r).get c := by
  have e : 3 * r + c = 3 * (r * 1 + 0) + c := by ring
  rw [e, computeFft_apply d.Wf _ _ hr Nat.zero_lt_one hc]
  have : ∀ j ∈ Finset.range d.N, d.Wf r j * fillFft ex d.od d.ld d.kpg p Hin buf b 1 (3 * (j * 1 + 0) + c) =
      d.Wf r j * (ex (d.kpg j) (band p Hin b j).1 (band p Hin b j).2).get c := by
    intro j hj
    rw [fillFft_apply ex d.kpg p Hin buf b (Finset.mem_range.1 hj) Nat.zero_lt_one hc, Nat.add_zero]
  rw [Finset.sum_congr rfl this]
  interval_cases c <;> rfl

theorem transform_congr (d : OpData) {u v : ℕ → V3 ℂ} (h : ∀ G < d.N, u G = v G) : transform d.Wf d.N u = transform d.Wf d.N v := by
  funext r
  have : ∀ f : V3 ℂ → ℂ, ∑ j ∈ Finset.range d.N, d.Wf r j * f (u j) = ∑ j ∈ Finset.range d.N, d.Wf r j * f (v j) :=
    fun f => Finset.sum_congr rfl (fun j hj => by rw [h j (Finset.mem_range.1 hj)])
  unfold transform
  ext
  · exact this V3.x
  · exact this V3.y
  · exact this V3.z

/-- `maxwell_compute_H_from_B` into a one-band matrix applies the inverse permeability. -/
theorem oneFromB_apply (d : OpData) (mu : ℕ → HMat) (p : ℕ) (H W0 buf : ℕ → ℂ) (b : ℕ) :
    ∀ G < d.N, band 1 (oneFromB d mu p H W0 buf b) 0 G = bandMu d mu (band p H b) G := by
  intro G hG
  unfold oneFromB
  simp only
  obtain ⟨h1, -⟩ := storeBands_apply c2t (od := d.od) (ld := d.ld) d.kpg (computeFft d.Wb d.N (1 * 3)
    (eFromD d.N 1 mu (hFromH d p H buf b 1)) (eFromD d.N 1 mu (hFromH d p H buf b 1))) W0 (p := 1) (start := 0) (num := 1) (by omega)
    (1 / (d.N : ℝ))
  refine (h1 G hG 0 Nat.zero_lt_one).trans ?_
  unfold bandMu colOp
  have he : ∀ r < d.N, ∀ c < 3, eFromD d.N 1 mu (hFromH d p H buf b 1) (3 * (r * 1 + 0) + c) = ((mu r).mulVec
      (transform d.Wf d.N (fun G => t2c (d.kpg G) (band p H b G).1 (band p H b G).2) r)).get c := by
    intro r hr c hc
    refine (eFromD_apply mu _ hr Nat.zero_lt_one c hc).trans ?_
    unfold hFromH
    simp only [Nat.mul_one, Nat.add_zero]
    have f0 := fillTransform t2c d p H buf b (c := 0) hr (by omega)
    have f1 := fillTransform t2c d p H buf b (c := 1) hr (by omega)
    have f2 := fillTransform t2c d p H buf b (c := 2) hr (by omega)
    rw [Nat.add_zero] at f0
    rw [f0, f1, f2]
    rfl
  have hg : ∀ c < 3, computeFft d.Wb d.N (1 * 3) (eFromD d.N 1 mu (hFromH d p H buf b 1)) (eFromD d.N 1 mu (hFromH d p H buf b 1))
      (3 * (G * 1 + 0) + c) = (transform d.Wb d.N (fun r => (mu r).mulVec
      (transform d.Wf d.N (fun G => t2c (d.kpg G) (band p H b G).1 (band p H b G).2) r)) G).get c := by
    intro c hc
    refine (computeFft_apply d.Wb _ _ hG Nat.zero_lt_one hc).trans ?_
    rw [Finset.sum_congr rfl (fun j hj => by rw [he j (Finset.mem_range.1 hj) c hc])]
    interval_cases c <;> rfl
  rw [hg 0 (by omega), hg 1 (by omega), hg 2 (by omega)]
  rfl

/-- The vector at point `r` of the three fields. -/
theorem scaled_vec (N : ℕ) (s : ℝ) (F : ℕ → ℂ) (t : ℕ → V3 ℂ) (h : ∀ r < N, ∀ c < 3, F (3 * r + c) = (t r).get c) {r : ℕ} (hr : r < N) :
    cvec (toReals (scaleField N s F)) r = V3.smul (s : ℂ) (t r) := by
  rw [cvec_toReals]
  have hs : ∀ c < 3, scaleField N s F (3 * r + c) = (s : ℂ) * (t r).get c := by
    intro c hc
    unfold scaleField
    rw [if_pos (by omega), h r hr c hc]
    apply Complex.ext <;> simp <;> ring
  have h0 := hs 0 (by omega)
  rw [Nat.add_zero] at h0
  rw [h0, hs 1 (by omega), hs 2 (by omega)]
  rfl

theorem getB_vec (d : OpData) (p : ℕ) (H buf : ℕ → ℂ) (Vol : ℝ) (b : ℕ) {r : ℕ} (hr : r < d.N) :
    cvec (toReals (getB d p H buf Vol b)) r = V3.smul ((1 / Real.sqrt Vol : ℝ) : ℂ) (plainField d (band p H b) r) := by
  unfold getB
  refine scaled_vec d.N _ _ _ (fun r hr c hc => ?_) hr
  unfold hFromH
  rw [fillTransform t2c d p H buf b hr hc]
  simp only [C02_t2c]
  rfl

theorem getH_vec (d : OpData) (p : ℕ) (H W0 buf buf2 : ℕ → ℂ) (Vol : ℝ) (b : ℕ) {r : ℕ} (hr : r < d.N) :
    cvec (toReals (getH d p H W0 buf buf2 Vol b)) r =
      V3.smul ((1 / Real.sqrt Vol : ℝ) : ℂ) (plainField d (bandMuinv d (band p H b)) r) := by
  unfold getH bandMuinv
  refine scaled_vec d.N _ _ _ (fun r hr c hc => ?_) hr
  unfold hFromH
  cases d.muInv with
  | none =>
    simp only
    rw [fillTransform t2c d p H buf b hr hc]
    simp only [C02_t2c]
    rfl
  | some mu =>
    simp only
    rw [fillTransform t2c d 1 _ buf2 0 hr hc]
    simp only [C02_t2c]
    unfold plainField
    rw [transform_congr d (v := fun G => cart (d.kpg G) (bandMu d mu (band p H b) G))
      (fun G hG => by rw [oneFromB_apply d mu p H W0 buf b G hG])]

theorem getD_vec (d : OpData) (K : ℕ → V3 ℝ) (hK : ∀ G < d.N, IsBasis (K G) (d.kpg G)) (p : ℕ) (H W0 buf buf2 : ℕ → ℂ) (freqs : ℕ → ℝ)
    (Vol : ℝ) (b : ℕ) {r : ℕ} (hr : r < d.N) :
    cvec (toReals (getD d p H W0 buf buf2 freqs Vol b)) r =
      V3.smul (((if freqs b ≠ 0 then -1 / freqs b else -1) / Real.sqrt Vol : ℝ) : ℂ) (curlField d K (bandMuinv d (band p H b)) r) := by
  unfold getD bandMuinv
  refine scaled_vec d.N _ _ _ (fun r hr c hc => ?_) hr
  unfold dFromH
  cases d.muInv with
  | none =>
    simp only
    rw [fillTransform crossT2c d p H buf b hr hc]
    unfold curlField
    rw [transform_congr d (fun G hG => C02_curl_t2c (K G) (d.kpg G) (hK G hG) _ _)]
  | some mu =>
    simp only
    rw [fillTransform crossT2c d 1 _ buf2 0 hr hc]
    unfold curlField
    rw [transform_congr d (v := fun G => V3.cross (toC (K G)) (cart (d.kpg G) (bandMu d mu (band p H b) G)))
      (fun G hG => by rw [C02_curl_t2c (K G) (d.kpg G) (hK G hG), oneFromB_apply d mu p H W0 buf b G hG])]

theorem herm_smul (s : ℝ) (u v : V3 ℂ) : herm (V3.smul (s : ℂ) u) (V3.smul (s : ℂ) v) = ((s * s : ℝ) : ℂ) * herm u v := by
  apply Complex.ext <;> simp [herm] <;> ring

theorem mulVec_smul (s : ℝ) (M : HMat) (v : V3 ℂ) : M.mulVec (V3.smul (s : ℂ) v) = V3.smul (s : ℂ) (M.mulVec v) := by
  ext <;> apply Complex.ext <;> simp [HMat.mulVec] <;> ring

theorem rangeSum_false (N : ℕ) (e : ℕ → ℝ) : rangeSum (fun _ => false) N e = ∑ i ∈ Finset.range N, e i := by
  induction N with
  | zero => rfl
  | succ n ih =>
    rw [Finset.sum_range_succ, ← ih]
    unfold rangeSum
    rw [List.range_succ, List.foldl_append]; rfl

/-- The total energy of a scaled field. -/
theorem scaled_energy (d : OpData) (hN : 0 < d.N) (T : ℕ → V3 ℂ → V3 ℂ) (mem : ℕ → ℝ) (s Vol : ℝ) (t u : ℕ → V3 ℂ)
    (h1 : ∀ r < d.N, cvec mem r = V3.smul (s : ℂ) (t r)) (h2 : ∀ r < d.N, T r (cvec mem r) = V3.smul (s : ℂ) (u r)) :
    (fieldEnergy T (fun _ => false) d.N d.N Vol mem).1 =
      s * s * Vol * ((1 / (d.N : ℂ)) * ∑ r ∈ Finset.range d.N, herm (t r) (u r)).re := by
  unfold fieldEnergy
  simp only
  rw [(C42_in_place T (fun _ => false) d.N mem).2.2.1, rangeSum_false]
  have : ∀ r ∈ Finset.range d.N, (herm (cvec mem r) (T r (cvec mem r))).re = s * s * (herm (t r) (u r)).re := by
    intro r hr
    rw [h2 r (Finset.mem_range.1 hr), h1 r (Finset.mem_range.1 hr), herm_smul, Complex.re_ofReal_mul]
  rw [Finset.sum_congr rfl this, ← Finset.mul_sum]
  have hc : (1 / (d.N : ℂ)) = ((1 / (d.N : ℝ) : ℝ) : ℂ) := by push_cast; rfl
  rw [hc, Complex.re_ofReal_mul, Complex.re_sum]
  ring

theorem herm_cart {K : V3 ℝ} {k : KData} (h : IsBasis K k) (x y : ℂ × ℂ) : herm (cart k x) (cart k y) = hermT x y := by
  have mm : (k.m.x : ℂ) * k.m.x + k.m.y * k.m.y + k.m.z * k.m.z = 1 := by exact_mod_cast h.mm
  have nn : (k.n.x : ℂ) * k.n.x + k.n.y * k.n.y + k.n.z * k.n.z = 1 := by exact_mod_cast h.nn
  have mn : (k.m.x : ℂ) * k.n.x + k.m.y * k.n.y + k.m.z * k.n.z = 0 := by exact_mod_cast h.mn
  unfold herm hermT cart toC
  simp only [V3.add_x, V3.add_y, V3.add_z, V3.smul_x, V3.smul_y, V3.smul_z, V3.map, map_add, map_mul, Complex.conj_ofReal]
  linear_combination (starRingEnd ℂ) x.1 * y.1 * mm + (starRingEnd ℂ) x.2 * y.2 * nn +
    ((starRingEnd ℂ) x.1 * y.2 + (starRingEnd ℂ) x.2 * y.1) * mn

theorem parseval_inner {d : OpData} (hN : 0 < d.N) (hU : Parseval d) {K : ℕ → V3 ℝ} (hK : ∀ G < d.N, IsBasis (K G) (d.kpg G))
    (x y : ℕ → ℂ × ℂ) : (1 / (d.N : ℂ)) * ∑ r ∈ Finset.range d.N, herm (plainField d x r) (plainField d y r) = inner d.N x y := by
  have key : ∀ (f : V3 ℂ → ℂ) (u v : ℕ → V3 ℂ), ∑ r ∈ Finset.range d.N,
      (starRingEnd ℂ) (∑ G ∈ Finset.range d.N, d.Wf r G * f (u G)) * (∑ G ∈ Finset.range d.N, d.Wf r G * f (v G)) =
      (d.N : ℂ) * ∑ G ∈ Finset.range d.N, (starRingEnd ℂ) (f (u G)) * f (v G) := by
    intro f u v
    have e1 : ∀ r, (starRingEnd ℂ) (∑ G ∈ Finset.range d.N, d.Wf r G * f (u G)) * (∑ G ∈ Finset.range d.N, d.Wf r G * f (v G)) =
        ∑ G ∈ Finset.range d.N, ∑ G' ∈ Finset.range d.N, (starRingEnd ℂ) (f (u G)) * f (v G') * ((starRingEnd ℂ) (d.Wf r G) * d.Wf r G') := by
      intro r
      rw [map_sum, Finset.sum_mul_sum]
      refine Finset.sum_congr rfl fun G _ => Finset.sum_congr rfl fun G' _ => ?_
      rw [map_mul]; ring
    simp only [e1]
    rw [Finset.sum_comm, Finset.mul_sum]
    refine Finset.sum_congr rfl fun G hG => ?_
    rw [Finset.sum_comm]
    have e2 : ∀ G' ∈ Finset.range d.N, ∑ r ∈ Finset.range d.N, (starRingEnd ℂ) (f (u G)) * f (v G') * ((starRingEnd ℂ) (d.Wf r G) * d.Wf r G') =
        if G = G' then (starRingEnd ℂ) (f (u G)) * f (v G') * d.N else 0 := by
      intro G' hG'
      rw [← Finset.mul_sum, hU G (Finset.mem_range.1 hG) G' (Finset.mem_range.1 hG')]
      split_ifs <;> ring
    rw [Finset.sum_congr rfl e2, Finset.sum_ite_eq, if_pos hG]
    ring
  have hne : (d.N : ℂ) ≠ 0 := Nat.cast_ne_zero.2 hN.ne'
  unfold plainField
  simp only [herm, transform, Finset.sum_add_distrib]
  rw [key V3.x, key V3.y, key V3.z, ← mul_add, ← mul_add, ← mul_assoc, one_div, inv_mul_cancel₀ hne, one_mul,
    ← Finset.sum_add_distrib, ← Finset.sum_add_distrib]
  unfold Maxwell.Spec.inner
  refine Finset.sum_congr rfl fun G hG => ?_
  exact herm_cart (hK G (Finset.mem_range.1 hG)) (x G) (y G)

theorem scale_sq {Vol : ℝ} (hV : 0 < Vol) (c : ℝ) : c / Real.sqrt Vol * (c / Real.sqrt Vol) * Vol = c * c := by
  have h := Real.mul_self_sqrt hV.le
  have hs : Real.sqrt Vol ≠ 0 := (Real.sqrt_pos.2 hV).ne'
  rw [div_mul_div_comm, h, div_mul_cancel₀ _ hV.ne']

/-- **C47** (B).  The B field returned by `get-bfield` of a normalised eigenvector has unit total magnetic energy
(`compute-field-energy` after it returns 1), with or without a permeability. -/
theorem C47_b (d : OpData) (hN : 0 < d.N) (hW : AdjointTransforms d) (hU : Parseval d) (K : ℕ → V3 ℝ)
    (hK : ∀ G < d.N, IsBasis (K G) (d.kpg G)) (p : ℕ) (H buf : ℕ → ℂ) (b : ℕ) (lam Vol : ℝ) (hV : 0 < Vol)
    (hx : EigenBand d (band p H b) lam) :
    (fieldEnergy (energyField 'b' d.epsInv d.muInv) (fun _ => false) d.N d.N Vol (toReals (getB d p H buf Vol b))).1 = 1 := by
  have hv : ∀ r < d.N, _ := fun r hr => getB_vec d p H buf Vol b (r := r) hr
  cases hmu : d.muInv with
  | none =>
    rw [scaled_energy d hN _ _ _ Vol _ (plainField d (band p H b)) hv, scale_sq hV, parseval_inner hN hU hK]
    · have := hx.norm
      unfold bandMuinv at this
      rw [hmu] at this
      simp only at this
      rw [this]; norm_num
    · intro r hr
      unfold energyField
      rw [if_neg (by decide), if_pos rfl]
      exact hv r hr
  | some mu =>
    rw [scaled_energy d hN _ _ _ Vol _ (fun r => (mu r).mulVec (plainField d (band p H b) r)) hv, scale_sq hV]
    · have := hx.norm
      unfold bandMuinv at this
      rw [hmu] at this
      simp only at this
      unfold bandMu at this
      rw [inner_plain hW] at this
      unfold gridForm at this
      rw [this]; norm_num
    · intro r hr
      unfold energyField
      rw [if_neg (by decide), if_pos rfl]
      simp only
      rw [hv r hr, mulVec_smul]

/-- **C47** (H without permeability).  Then H and B are the same and `compute-field-energy` after `get-hfield` returns 1. -/
theorem C47_h (d : OpData) (hN : 0 < d.N) (hU : Parseval d) (K : ℕ → V3 ℝ)
    (hK : ∀ G < d.N, IsBasis (K G) (d.kpg G)) (p : ℕ) (H W0 buf buf2 : ℕ → ℂ) (b : ℕ) (lam Vol : ℝ) (hV : 0 < Vol)
    (hx : EigenBand d (band p H b) lam) (hmu : d.muInv = none) :
    (fieldEnergy (energyField 'h' d.epsInv d.muInv) (fun _ => false) d.N d.N Vol (toReals (getH d p H W0 buf buf2 Vol b))).1 = 1 := by
  have hv : ∀ r < d.N, _ := fun r hr => getH_vec d p H W0 buf buf2 Vol b (r := r) hr
  rw [scaled_energy d hN _ _ _ Vol _ (plainField d (bandMuinv d (band p H b))) hv, scale_sq hV, parseval_inner hN hU hK]
  · have := hx.norm
    unfold bandMuinv at this ⊢
    rw [hmu] at this ⊢
    simp only at this ⊢
    rw [this]; norm_num
  · intro r hr
    unfold energyField
    rw [if_neg (by decide), if_neg (by decide)]
    exact hv r hr

/-- **C47** (H with permeability).  The integral of `H* · B` over the cell of the two loaded fields is 1. -/
theorem C47_hb (d : OpData) (hN : 0 < d.N) (hU : Parseval d) (K : ℕ → V3 ℝ)
    (hK : ∀ G < d.N, IsBasis (K G) (d.kpg G)) (p : ℕ) (H W0 buf buf2 buf3 : ℕ → ℂ) (b : ℕ) (lam Vol : ℝ) (hV : 0 < Vol)
    (hx : EigenBand d (band p H b) lam) :
    (Vol / d.N : ℂ) * ∑ r ∈ Finset.range d.N, herm (cvec (toReals (getB d p H buf3 Vol b)) r) (cvec (toReals (getH d p H W0 buf buf2 Vol b)) r) = 1 := by
  have e : ∀ r ∈ Finset.range d.N, herm (cvec (toReals (getB d p H buf3 Vol b)) r) (cvec (toReals (getH d p H W0 buf buf2 Vol b)) r) =
      ((1 / Real.sqrt Vol * (1 / Real.sqrt Vol) : ℝ) : ℂ) * herm (plainField d (band p H b) r) (plainField d (bandMuinv d (band p H b)) r) := by
    intro r hr
    rw [getB_vec d p H buf3 Vol b (Finset.mem_range.1 hr), getH_vec d p H W0 buf buf2 Vol b (Finset.mem_range.1 hr), herm_smul]
  rw [Finset.sum_congr rfl e, ← Finset.mul_sum]
  have h2 := parseval_inner hN hU hK (band p H b) (bandMuinv d (band p H b))
  rw [hx.norm] at h2
  have h3 : (((1 / Real.sqrt Vol * (1 / Real.sqrt Vol) : ℝ) : ℂ)) * (Vol : ℂ) = 1 := by
    rw [← Complex.ofReal_mul, scale_sq hV]; norm_num
  rw [div_eq_mul_one_div]
  linear_combination (((1 / Real.sqrt Vol * (1 / Real.sqrt Vol) : ℝ) : ℂ)) * (Vol : ℂ) * h2 + h3

/-- The electric energy of the D field for any stored frequency. -/
theorem d_energy (d : OpData) (hN : 0 < d.N) (hW : AdjointTransforms d) (K : ℕ → V3 ℝ)
    (hK : ∀ G < d.N, IsBasis (K G) (d.kpg G)) (p : ℕ) (H W0 buf buf2 : ℕ → ℂ) (freqs : ℕ → ℝ) (b : ℕ) (lam Vol : ℝ) (hV : 0 < Vol)
    (hx : EigenBand d (band p H b) lam) (hf : freqs b ≠ 0) :
    (fieldEnergy (energyField 'd' d.epsInv d.muInv) (fun _ => false) d.N d.N Vol
      (toReals (getD d p H W0 buf buf2 freqs Vol b))).1 = lam / (freqs b * freqs b) := by
  have hv : ∀ r < d.N, _ := fun r hr => getD_vec d K hK p H W0 buf buf2 freqs Vol b (r := r) hr
  rw [scaled_energy d hN _ _ _ Vol _ (fun r => (d.epsInv r).mulVec (curlField d K (bandMuinv d (band p H b)) r)) hv]
  · rw [if_pos hf, scale_sq hV]
    have h1 := inner_bandMaxwell hW hK (band p H b) (band p H b)
    have h2 : inner d.N (band p H b) (bandMaxwell d (band p H b)) = (lam : ℂ) := by
      have h3 := hx.norm
      unfold Maxwell.Spec.inner at h3 ⊢
      have : ∀ G ∈ Finset.range d.N, hermT (band p H b G) (bandMaxwell d (band p H b) G) =
          lam * hermT (band p H b G) (bandMuinv d (band p H b) G) := by
        intro G hG
        rw [hx.eig G (Finset.mem_range.1 hG)]
        unfold hermT
        ring
      rw [Finset.sum_congr rfl this, ← Finset.mul_sum, h3, mul_one]
    unfold gridForm at h1
    rw [← h1, h2, Complex.ofReal_re]
    field_simp
  · intro r hr
    unfold energyField
    rw [if_pos rfl, hv r hr, mulVec_smul]

/-- **C47** (D, positive mode).  The D field returned by `get-dfield` for a normalised eigenvector of eigenvalue `ω² > 0` has
unit total electric energy, with or without a permeability. -/
theorem C47_d_partial (d : OpData) (hN : 0 < d.N) (hW : AdjointTransforms d) (K : ℕ → V3 ℝ)
    (hK : ∀ G < d.N, IsBasis (K G) (d.kpg G)) (p : ℕ) (H W0 buf buf2 : ℕ → ℂ) (freqs : ℕ → ℝ) (b : ℕ) (lam Vol : ℝ) (hV : 0 < Vol)
    (hx : EigenBand d (band p H b) lam) (hl : 0 < lam) (hf : freqs b = storedFreq false lam) :
    (fieldEnergy (energyField 'd' d.epsInv d.muInv) (fun _ => false) d.N d.N Vol
      (toReals (getD d p H W0 buf buf2 freqs Vol b))).1 = 1 := by
  have hs : freqs b = Real.sqrt lam := by rw [hf]; rfl
  rw [d_energy d hN hW K hK p H W0 buf buf2 freqs b lam Vol hV hx (by rw [hs]; exact (Real.sqrt_pos.2 hl).ne'), hs,
    Real.mul_self_sqrt hl.le, div_self hl.ne']

/-- **C47, negative-epsilon mode**: the electric energy of the D field is `1/ω²`, not 1, because `get-dfield` divides by the
stored `ω²` as if it were `ω`. -/
theorem C47_negative (d : OpData) (hN : 0 < d.N) (hW : AdjointTransforms d) (K : ℕ → V3 ℝ)
    (hK : ∀ G < d.N, IsBasis (K G) (d.kpg G)) (p : ℕ) (H W0 buf buf2 : ℕ → ℂ) (freqs : ℕ → ℝ) (b : ℕ) (lam Vol : ℝ) (hV : 0 < Vol)
    (hx : EigenBand d (band p H b) lam) (hl : lam ≠ 0) (hf : freqs b = storedFreq true lam) :
    (fieldEnergy (energyField 'd' d.epsInv d.muInv) (fun _ => false) d.N d.N Vol
      (toReals (getD d p H W0 buf buf2 freqs Vol b))).1 = 1 / lam := by
  have hs : freqs b = lam := by rw [hf]; rfl
  rw [d_energy d hN hW K hK p H W0 buf buf2 freqs b lam Vol hV hx (by rw [hs]; exact hl), hs]
  field_simp

/-! ### A concrete eigenpair -/

/-- One grid point, vacuum, `k + G = (2,0,0)`. -/
noncomputable def exD : OpData :=
  { od := 1, ld := 1, nfb := 1, kpg := fun _ => ⟨2, ⟨0, 1, 0⟩, ⟨0, 0, 1⟩⟩, epsInv := fun _ => ⟨1, 1, 1, 0, 0, 0⟩, muInv := none,
    Wf := fun _ _ => 1, Wb := fun _ _ => 1 }

theorem exD_basis : ∀ G < exD.N, IsBasis ⟨2, 0, 0⟩ (exD.kpg G) := by
  intro G _
  constructor <;> simp [exD] <;> norm_num
  ext <;> simp [V3.cross]

theorem exD_eigen : EigenBand exD (band 1 (fun a => if a = 0 then 1 else 0) 0) 4 := by
  constructor
  · intro G hG
    have : G = 0 := by
      have : exD.N = 1 := rfl
      omega
    subst this
    simp [bandMaxwell, bandMuinv, bandOp, exD, colOp, transform, OpData.N, band, crossT2c, crossC2t, HMat.mulVec]
    constructor <;> apply Complex.ext <;> simp <;> norm_num
  · simp [bandMuinv, exD, Maxwell.Spec.inner, OpData.N, band, hermT]

theorem exD_ok : 0 < exD.N ∧ AdjointTransforms exD ∧ Parseval exD := by
  refine ⟨by decide, fun G _ r _ => by simp [exD], fun G hG G' hG' => ?_⟩
  have : exD.N = 1 := rfl
  rw [this] at hG hG' ⊢
  have : G = G' := by omega
  simp [this, exD]

/-- Non-vacuity of `C47_d_partial`. -/
example : (fieldEnergy (energyField 'd' exD.epsInv exD.muInv) (fun _ => false) exD.N exD.N 8
    (toReals (getD exD 1 (fun a => if a = 0 then 1 else 0) 0 0 0 (fun _ => Real.sqrt 4) 8 0))).1 = 1 :=
  C47_d_partial exD exD_ok.1 exD_ok.2.1 _ exD_basis 1 _ _ _ _ _ 0 4 8 (by norm_num) exD_eigen (by norm_num) rfl

/-- **C47, refuted** in negative-epsilon mode: for this eigenvector of eigenvalue 4 the electric energy is 1/4. -/
theorem C47_negative_refuted : (fieldEnergy (energyField 'd' exD.epsInv exD.muInv) (fun _ => false) exD.N exD.N 8
    (toReals (getD exD 1 (fun a => if a = 0 then 1 else 0) 0 0 0 (fun _ => storedFreq true 4) 8 0))).1 = 1 / 4 :=
  C47_negative exD exD_ok.1 exD_ok.2.1 _ exD_basis 1 _ _ _ _ _ 0 4 8 (by norm_num) exD_eigen (by norm_num) rfl

end Mpb.Field

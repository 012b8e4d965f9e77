import Verif.Dist.FieldModel
import Verif.Dist.Ops
import Verif.Dist.Program
import Verif.Field.EnergyProps
import Verif.Flux.Model

/-! # C94 and C47 for the field functions on several processes -/

namespace Mpb.Dist

open Mpb.Maxwell Mpb.Maxwell.Spec Mpb.Dist.Spec Mpb.Field.Spec

variable {P : ℕ}

namespace Spec

/-- The arrays `Fs` are the parts of the vector field `F` of one process: the three components at the point (x, y, z), for the rows `y`
of the process, in the order y, x, z. -/
def SameField {α : Type*} (l : Layout P) (nx ny nz : ℕ) (F : ℕ → α) (Fs : Fin P → ℕ → α) : Prop :=
  ∀ r, ∀ y < l.size r, ∀ x < nx, ∀ z < nz, ∀ c < 3,
    Fs r (3 * ((y * nx + x) * nz + z) + c) = F (3 * ((x * ny + (l.start r + y)) * nz + z) + c)

end Spec
open Spec

theorem sameField_iff {α : Type*} {l : Layout P} {nx ny nz : ℕ} {F : ℕ → α} {Fs : Fin P → ℕ → α} :
    SameField l nx ny nz F Fs ↔ ∀ r, ∀ j < l.size r * nx * nz, ∀ c < 3, Fs r (3 * j + c) = F (3 * point l nx ny nz r j + c) := by
  constructor
  · intro h r j hj c hc
    obtain ⟨y, hy, x, hx, z, hz, rfl⟩ := exists_point hj
    rw [h r y hy x hx z hz c hc, point_eq l r hx hz]
  · intro h r y hy x hx z hz c hc
    rw [h r _ (rowMajor_lt (rowMajor_lt hy hx) hz) c hc, point_eq l r hx hz]

theorem toSpace_apply (ex : KData → ℂ → ℂ → V3 ℂ) {d : OpData P} {D : Maxwell.OpData} (h : SameProblem d D) {p : ℕ} (Hs bufs : Fin P → ℕ → ℂ) {b : ℕ}
    {x : ℕ → ℂ × ℂ} (hin : ∀ r, ∀ G < d.lx.size r * (d.ny * d.nz), band p (Hs r) b G = x (d.lx.start r * (d.ny * d.nz) + G))
    {r : Fin P} {j c : ℕ} (hj : j < d.out r) (hc : c < 3) :
    toSpace ex d p Hs bufs b r (3 * j + c) =
      (transform D.Wf D.N (fun G => ex (D.kpg G) (x G).1 (x G).2) (point d.ly d.nx d.ny d.nz r j)).get c := by
  set m := d.ny * d.nz with hm
  have hN : D.N = d.nx * m := by rw [Maxwell.OpData.N, h.points, hm]; ring
  have e : 3 * j + c = 3 * (j * 1 + 0) + c := by ring
  unfold toSpace
  rw [e, fftForward_apply d.Wf d.lx d.ly _ _ hj Nat.zero_lt_one hc]
  have : ∀ t : Fin P, ∀ i ∈ Finset.range (d.lx.size t * m),
      d.Wf (point d.ly d.nx d.ny d.nz r j) (d.lx.start t * m + i) * fillFft ex (d.od t) d.ld (d.kpg t) p (Hs t) (bufs t) b 1 (3 * (i * 1 + 0) + c)
        = (fun G => D.Wf (point d.ly d.nx d.ny d.nz r j) G * (ex (D.kpg G) (x G).1 (x G).2).get c) (d.lx.start t * m + i) := by
    intro t i hi
    have hi := Finset.mem_range.1 hi
    rw [fillFft_apply ex (d.kpg t) p (Hs t) (bufs t) b (by rw [dims_of h]; exact hi) Nat.zero_lt_one hc, Nat.add_zero, hin t i hi,
      h.vectors t i hi, h.forward]
  rw [Finset.sum_congr rfl fun t _ => Finset.sum_congr rfl (this t),
    sum_pieces h.rows m (fun G => D.Wf (point d.ly d.nx d.ny d.nz r j) G * (ex (D.kpg G) (x G).1 (x G).2).get c), ← hN]
  interval_cases c <;> rfl

theorem oneFromB_band {d : OpData P} {D : Maxwell.OpData} (h : SameProblem d D) {M : ℕ → HMat} {Ms : Fin P → ℕ → HMat}
    (hM : TransposedPieces d.ly d.nx d.ny d.nz M Ms) {p : ℕ} (Hs W0s bufs : Fin P → ℕ → ℂ) {b : ℕ} {x : ℕ → ℂ × ℂ}
    (hin : ∀ r, ∀ G < d.lx.size r * (d.ny * d.nz), band p (Hs r) b G = x (d.lx.start r * (d.ny * d.nz) + G)) :
    ∀ r, ∀ G < d.lx.size r * (d.ny * d.nz), band 1 (oneFromB d Ms p Hs W0s bufs b r) 0 G = bandMu D M x (d.lx.start r * (d.ny * d.nz) + G) := by
  intro r G hG
  set m := d.ny * d.nz with hm
  have hN : d.nx * d.ny * d.nz = D.N := by rw [Maxwell.OpData.N, h.points]
  unfold oneFromB
  set e := fun r => eFromD (d.out r) 1 (Ms r) (toSpace t2c d p Hs bufs b r) with he
  have st := (storeBands_apply c2t (od := d.od r) (ld := d.ld) (d.kpg r)
    (fftBackward d.Wb d.lx d.ly d.nx d.ny d.nz (1 * 3) e e r) (W0s r) (p := 1) (start := 0) (num := 1) (by omega) (1 / (d.N : ℝ))).1 G
    (by rw [dims_of h]; exact hG) 0 Nat.zero_lt_one
  refine st.trans ?_
  have ee : ∀ s, ∀ j < d.ly.size s * d.nx * d.nz, ∀ c < 3, e s (3 * (j * 1 + 0) + c) =
      ((M (point d.ly d.nx d.ny d.nz s j)).mulVec (transform D.Wf D.N (fun G => t2c (D.kpg G) (x G).1 (x G).2) (point d.ly d.nx d.ny d.nz s j))).get c := by
    intro s j hj c hc
    rw [he]
    refine (eFromD_apply (n := d.out s) (Ms s) _ hj Nat.zero_lt_one c hc).trans ?_
    simp only [Nat.mul_one, Nat.add_zero]
    have f0 := toSpace_apply t2c h Hs bufs hin (c := 0) hj (by omega)
    rw [Nat.add_zero] at f0
    rw [f0, toSpace_apply t2c h Hs bufs hin (c := 1) hj (by omega), toSpace_apply t2c h Hs bufs hin (c := 2) hj (by omega), transposed_point hM hj]
    rfl
  have hg : ∀ c < 3, fftBackward d.Wb d.lx d.ly d.nx d.ny d.nz (1 * 3) e e r (3 * (G * 1 + 0) + c) =
      (transform D.Wb D.N (fun i => (M i).mulVec (transform D.Wf D.N (fun G => t2c (D.kpg G) (x G).1 (x G).2) i)) (d.lx.start r * m + G)).get c := by
    intro c hc
    rw [fftBackward_apply d.Wb d.lx d.ly _ _ hG Nat.zero_lt_one hc]
    have : ∀ s : Fin P, ∀ j ∈ Finset.range (d.ly.size s * d.nx * d.nz),
        d.Wb (d.lx.start r * (d.ny * d.nz) + G) (point d.ly d.nx d.ny d.nz s j) * e s (3 * (j * 1 + 0) + c)
          = (fun i => D.Wb (d.lx.start r * m + G) i * ((M i).mulVec (transform D.Wf D.N (fun G => t2c (D.kpg G) (x G).1 (x G).2) i)).get c)
            (point d.ly d.nx d.ny d.nz s j) := by
      intro s j hj
      rw [ee s j (Finset.mem_range.1 hj) c hc, h.backward]
    rw [Finset.sum_congr rfl fun t _ => Finset.sum_congr rfl (this t), sum_points h.columns
      (fun i => D.Wb (d.lx.start r * m + G) i * ((M i).mulVec (transform D.Wf D.N (fun G => t2c (D.kpg G) (x G).1 (x G).2) i)).get c), hN]
    interval_cases c <;> rfl
  rw [hg 0 (by omega), hg 1 (by omega), hg 2 (by omega), h.vectors r G hG, sameN h]
  rfl

theorem serial_apply (ex : KData → ℂ → ℂ → V3 ℂ) (D : Maxwell.OpData) (p : ℕ) (H buf : ℕ → ℂ) {b : ℕ} {x : ℕ → ℂ × ℂ}
    (hx : ∀ G < D.N, band p H b G = x G) {i c : ℕ} (hi : i < D.N) (hc : c < 3) :
    computeFft D.Wf D.N (1 * 3) (fillFft ex D.od D.ld D.kpg p H buf b 1) buf (3 * i + c) =
      (transform D.Wf D.N (fun G => ex (D.kpg G) (x G).1 (x G).2) i).get c := by
  rw [Field.fillTransform ex D p H buf b hi hc, Field.transform_congr D (v := fun G => ex (D.kpg G) (x G).1 (x G).2) (fun G hG => by rw [hx G hG])]

theorem sameField_scale {d : OpData P} {D : Maxwell.OpData} (h : SameProblem d D) (s : ℝ) {F : ℕ → ℂ} {Fs : Fin P → ℕ → ℂ}
    (hF : SameField d.ly d.nx d.ny d.nz F Fs) :
    SameField d.ly d.nx d.ny d.nz (Field.scaleField D.N s F) fun r => Field.scaleField (d.out r) s (Fs r) := by
  rw [sameField_iff] at hF ⊢
  intro r j hj c hc
  have hN : d.nx * d.ny * d.nz = D.N := by rw [Maxwell.OpData.N, h.points]
  have hp := point_lt h.columns hj
  rw [hN] at hp
  unfold Field.scaleField
  rw [if_pos (show 3 * j + c < 3 * d.out r by unfold OpData.out; omega), if_pos (by omega), hF r j hj c hc]

theorem sameField_space (ex : KData → ℂ → ℂ → V3 ℂ) {d : OpData P} {D : Maxwell.OpData} (h : SameProblem d D) {p p' : ℕ} (H buf : ℕ → ℂ)
    (Hs bufs : Fin P → ℕ → ℂ) {b b' : ℕ} {x : ℕ → ℂ × ℂ} (hx : ∀ G < D.N, band p H b G = x G)
    (hin : ∀ r, ∀ G < d.lx.size r * (d.ny * d.nz), band p' (Hs r) b' G = x (d.lx.start r * (d.ny * d.nz) + G)) :
    SameField d.ly d.nx d.ny d.nz (computeFft D.Wf D.N (1 * 3) (fillFft ex D.od D.ld D.kpg p H buf b 1) buf) (toSpace ex d p' Hs bufs b') := by
  rw [sameField_iff]
  intro r j hj c hc
  have hp := point_lt h.columns hj
  have hN : d.nx * d.ny * d.nz = D.N := by rw [Maxwell.OpData.N, h.points]
  rw [hN] at hp
  rw [toSpace_apply ex h Hs bufs hin hj hc, serial_apply ex D p H buf hx hp hc]

/-- Applying tensors. -/
theorem sameField_tensor {d : OpData P} {D : Maxwell.OpData} (h : SameProblem d D) {M : ℕ → HMat} {Ms : Fin P → ℕ → HMat}
    (hM : TransposedPieces d.ly d.nx d.ny d.nz M Ms) {F : ℕ → ℂ} {Fs : Fin P → ℕ → ℂ} (hF : SameField d.ly d.nx d.ny d.nz F Fs) :
    SameField d.ly d.nx d.ny d.nz (eFromD D.N 1 M F) fun r => eFromD (d.out r) 1 (Ms r) (Fs r) := by
  rw [sameField_iff] at hF ⊢
  intro r j hj c hc
  have hp := point_lt h.columns hj
  have hN : d.nx * d.ny * d.nz = D.N := by rw [Maxwell.OpData.N, h.points]
  rw [hN] at hp
  have a1 := eFromD_apply (n := d.out r) (Ms r) (Fs r) (r := j) hj Nat.zero_lt_one c hc
  have a2 := eFromD_apply (n := D.N) M F hp Nat.zero_lt_one c hc
  have k0 := hF r j hj 0 (by omega)
  simp only [Nat.mul_one, Nat.add_zero] at a1 a2 k0
  rw [a1, a2, k0, hF r j hj 1 (by omega), hF r j hj 2 (by omega), transposed_point hM hj]

theorem eFromD_frame (n : ℕ) (M : ℕ → HMat) (F : ℕ → ℂ) {a : ℕ} (ha : 3 * n ≤ a) : eFromD n 1 M F a = F a := by
  unfold eFromD
  have key : ∀ (L : List (ℕ × ℕ)) (G : ℕ → ℂ), (∀ t ∈ L, t.1 < n ∧ t.2 < 1) →
      (L.foldl (fun mem t =>
        let ib := 3 * (t.1 * 1 + t.2)
        write3 ib ((M t.1).mulVec ⟨mem (ib + 0), mem (ib + 1), mem (ib + 2)⟩) mem) G) a = G a := by
    intro L
    induction L with
    | nil => intro G _; rfl
    | cons t L ih =>
      intro G hL
      rw [List.foldl_cons, ih _ fun u hu => hL u (List.mem_cons_of_mem _ hu)]
      have ht := hL t List.mem_cons_self
      simp only [write3, writes_cons, writes_nil, Function.update_apply]
      rw [if_neg (by omega), if_neg (by omega), if_neg (by omega)]
  exact key _ F fun t ht => mem_loop2.1 ht

/-- **C94** (fields).  On every number of processes and for every distribution of the grid, `get-dfield`, `get-hfield`, `get-bfield` and
`get-efield` leave on each process the values, at the points it holds, of the field one process would have computed from the same bands,
whatever the FFT buffers and the work array contained; the multiplication by the tensors changes nothing beyond those points. -/
theorem C94_fields {d : OpData P} {D : Maxwell.OpData} (h : SameProblem d D) {p : ℕ} {H : ℕ → ℂ} {Hs : Fin P → ℕ → ℂ}
    (hH : Pieces d.lx (d.ny * d.nz * (2 * p)) H Hs) (W0 buf buf2 : ℕ → ℂ) (W0s bufs buf2s : Fin P → ℕ → ℂ) (freqs : ℕ → ℝ) (Vol : ℝ) {b : ℕ} (hb : b < p) :
    SameField d.ly d.nx d.ny d.nz (Field.getD D p H W0 buf buf2 freqs Vol b) (getD d p Hs W0s bufs buf2s freqs Vol b) ∧
      SameField d.ly d.nx d.ny d.nz (Field.getH D p H W0 buf buf2 Vol b) (getH d p Hs W0s bufs buf2s Vol b) ∧
      SameField d.ly d.nx d.ny d.nz (Field.getB D p H buf Vol b) (getB d p Hs bufs Vol b) ∧
      SameField d.ly d.nx d.ny d.nz (Flux.getE D p H W0 buf buf2 freqs Vol b) (getE d p Hs W0s bufs buf2s freqs Vol b) ∧
      ∀ r a, 3 * (d.ly.size r * d.nx * d.nz) ≤ a → getE d p Hs W0s bufs buf2s freqs Vol b r a = getD d p Hs W0s bufs buf2s freqs Vol b r a := by
  have hin : ∀ r, ∀ G < d.lx.size r * (d.ny * d.nz), band p (Hs r) b G = band p H b (d.lx.start r * (d.ny * d.nz) + G) :=
    fun r G hG => pieces_band.1 hH r G hG b hb
  have key : ∀ ex : KData → ℂ → ℂ → V3 ℂ, SameField d.ly d.nx d.ny d.nz
      (match D.muInv with
        | none => computeFft D.Wf D.N (1 * 3) (fillFft ex D.od D.ld D.kpg p H buf b 1) buf
        | some mu => computeFft D.Wf D.N (1 * 3) (fillFft ex D.od D.ld D.kpg 1 (Field.oneFromB D mu p H W0 buf b) buf2 0 1) buf2)
      (match d.muInv with
        | none => toSpace ex d p Hs bufs b
        | some mu => toSpace ex d 1 (oneFromB d mu p Hs W0s bufs b) buf2s 0) := by
    intro ex
    have hmu := h.mu
    revert hmu
    cases hD : D.muInv with
    | none =>
      cases hd : d.muInv with
      | some Ms => intro hmu; exact hmu.elim
      | none => intro _; exact sameField_space ex h H buf Hs bufs (fun _ _ => rfl) hin
    | some M =>
      cases hd : d.muInv with
      | none => intro hmu; exact hmu.elim
      | some Ms =>
        intro hmu
        exact sameField_space ex h _ buf2 _ buf2s (Field.oneFromB_apply D M p H W0 buf b) (oneFromB_band h hmu Hs W0s bufs hin)
  have hDf : SameField d.ly d.nx d.ny d.nz (Field.getD D p H W0 buf buf2 freqs Vol b) (getD d p Hs W0s bufs buf2s freqs Vol b) :=
    sameField_scale h _ (key crossT2c)
  exact ⟨hDf, sameField_scale h _ (key t2c), sameField_scale h _ (sameField_space t2c h H buf Hs bufs (fun _ _ => rfl) hin),
    sameField_tensor h h.eps hDf, fun r a ha => eFromD_frame _ _ _ ha⟩

theorem cvec_same {d : OpData P} {F : ℕ → ℂ} {Fs : Fin P → ℕ → ℂ} (hF : SameField d.ly d.nx d.ny d.nz F Fs) {r : Fin P} {j : ℕ} (hj : j < d.out r) :
    Field.cvec (Field.toReals (Fs r)) j = Field.cvec (Field.toReals F) (point d.ly d.nx d.ny d.nz r j) := by
  rw [sameField_iff] at hF
  have k0 := hF r j hj 0 (by omega)
  simp only [Nat.add_zero] at k0
  rw [Field.cvec_toReals, Field.cvec_toReals, k0, hF r j hj 1 (by omega), hF r j hj 2 (by omega)]

theorem energyField_same {d : OpData P} {D : Maxwell.OpData} (h : SameProblem d D) (ty : Char) {r : Fin P} {j : ℕ} (hj : j < d.out r) :
    Field.energyField ty (d.epsInv r) (d.muInv.map (· r)) j = Field.energyField ty D.epsInv D.muInv (point d.ly d.nx d.ny d.nz r j) := by
  have he := transposed_point h.eps hj
  have hmu := h.mu
  funext v
  unfold Field.energyField
  rw [he]
  revert hmu
  cases hD : D.muInv with
  | none =>
    cases hd : d.muInv with
    | some Ms => intro hmu; exact hmu.elim
    | none => intro _; rfl
  | some M =>
    cases hd : d.muInv with
    | none => intro hmu; exact hmu.elim
    | some Ms =>
      intro hmu
      simp only [Option.map_some]
      rw [transposed_point hmu hj]

/-- **C94** (energy).  If the processes hold the parts of a field, `compute-field-energy` returns on every process the total and the six
fractions one process would return, and leaves on each process the energy density at its points. -/
theorem C94_energy {d : OpData P} {D : Maxwell.OpData} (h : SameProblem d D) (ty : Char) (Vol : ℝ) {F : ℕ → ℂ} {Fs : Fin P → ℕ → ℂ}
    (hF : SameField d.ly d.nx d.ny d.nz F Fs) :
    fieldEnergy d ty Vol (fun r => Field.toReals (Fs r)) =
        Field.fieldEnergy (Field.energyField ty D.epsInv D.muInv) (fun _ => false) D.N D.N Vol (Field.toReals F) ∧
      TransposedPieces d.ly d.nx d.ny d.nz (Field.energyLoop (Field.energyField ty D.epsInv D.muInv) (fun _ => false) D.N (Field.toReals F)).mem
        fun r => (energyLocal d ty (fun r => Field.toReals (Fs r)) r).mem := by
  have hN : d.nx * d.ny * d.nz = D.N := by rw [Maxwell.OpData.N, h.points]
  set T := Field.energyField ty D.epsInv D.muInv with hT
  obtain ⟨s1, -, s3, s4⟩ := Field.C42_in_place T (fun _ => false) D.N (Field.toReals F)
  have pr := fun r => Field.C42_in_place (Field.energyField ty (d.epsInv r) (d.muInv.map (· r))) (fun _ => false) (d.out r) (Field.toReals (Fs r))
  have hsum : (allreduce fun r => (energyLocal d ty (fun r => Field.toReals (Fs r)) r).energySum) = (Field.energyLoop T (fun _ => false) D.N (Field.toReals F)).energySum := by
    unfold allreduce energyLocal
    rw [s3, Field.rangeSum_false, ← hN, ← sum_points h.columns]
    refine Finset.sum_congr rfl fun r _ => ?_
    refine (pr r).2.2.1.trans ?_
    rw [Field.rangeSum_false]
    refine Finset.sum_congr rfl fun j hj => ?_
    have hj := Finset.mem_range.1 hj
    rw [cvec_same hF hj, energyField_same h ty hj]
  have hcomp : ∀ c, (allreduce fun r => (energyLocal d ty (fun r => Field.toReals (Fs r)) r).compSum c) =
      (Field.energyLoop T (fun _ => false) D.N (Field.toReals F)).compSum c := by
    intro c
    unfold allreduce energyLocal
    rw [s4, Field.rangeSum_false, ← hN, ← sum_points h.columns]
    refine Finset.sum_congr rfl fun r _ => ?_
    refine ((pr r).2.2.2 c).trans ?_
    rw [Field.rangeSum_false]
    refine Finset.sum_congr rfl fun j hj => ?_
    have hj := Finset.mem_range.1 hj
    rw [cvec_same hF hj, energyField_same h ty hj]
  constructor
  · unfold fieldEnergy Field.fieldEnergy
    simp only [hsum, hcomp, sameN h]
  · intro r y hy x hx z hz
    have hj : (y * d.nx + x) * d.nz + z < d.out r := rowMajor_lt (rowMajor_lt hy hx) hz
    have hp := point_lt h.columns (r := r) (j := (y * d.nx + x) * d.nz + z) hj
    have he := point_eq d.ly (ny := d.ny) r (y := y) hx hz
    have a1 := (pr r).1 _ hj
    rw [cvec_same hF hj, energyField_same h ty hj, he] at a1
    rw [hN, he] at hp
    unfold energyLocal
    exact a1.trans (s1 _ hp).symm

/-- **C47** in parallel.  In a run on any number of processes the D field of a normalised eigenvector of eigenvalue `ω² > 0` (outside
negative-epsilon mode) and the B field of every normalised eigenvector have unit energy. -/
theorem C47_parallel_partial {d : OpData P} {D : Maxwell.OpData} (h : SameProblem d D) (hN : 0 < D.N) (hW : AdjointTransforms D) (hU : Parseval D)
    (K : ℕ → V3 ℝ) (hK : ∀ G < D.N, IsBasis (K G) (D.kpg G)) {p : ℕ} {H : ℕ → ℂ} {Hs : Fin P → ℕ → ℂ}
    (hH : Pieces d.lx (d.ny * d.nz * (2 * p)) H Hs) (W0s bufs buf2s : Fin P → ℕ → ℂ) (freqs : ℕ → ℝ) (lam Vol : ℝ) (hV : 0 < Vol) {b : ℕ} (hb : b < p)
    (hx : EigenBand D (band p H b) lam) :
    (fieldEnergy d 'b' Vol (fun r => Field.toReals (getB d p Hs bufs Vol b r))).1 = 1 ∧
      (0 < lam → freqs b = Field.storedFreq false lam →
        (fieldEnergy d 'd' Vol (fun r => Field.toReals (getD d p Hs W0s bufs buf2s freqs Vol b r))).1 = 1) := by
  obtain ⟨f1, -, f3, -, -⟩ := C94_fields h hH (fun _ => 0) (fun _ => 0) (fun _ => 0) W0s bufs buf2s freqs Vol hb
  refine ⟨?_, fun hl hf => ?_⟩
  · rw [(C94_energy h 'b' Vol f3).1]
    exact Field.C47_b D hN hW hU K hK p H _ b lam Vol hV hx
  · rw [(C94_energy h 'd' Vol f1).1]
    exact Field.C47_d_partial D hN hW K hK p H _ _ _ freqs b lam Vol hV hx hl hf

/-! ### A concrete case: a grid of 1 × 2 × 1 points on two processes; one holds both plane waves, each holds one point -/

/-- One process. -/
noncomputable def exOne : Maxwell.OpData :=
  { od := 1, ld := 2, nfb := 1, kpg := fun _ => ⟨2, ⟨0, 1, 0⟩, ⟨0, 0, 1⟩⟩, epsInv := fun _ => ⟨1, 1, 1, 0, 0, 0⟩, muInv := none,
    Wf := fun i G => if i = 1 ∧ G = 1 then -1 else 1, Wb := fun G i => if i = 1 ∧ G = 1 then -1 else 1 }

/-- Two processes. -/
noncomputable def exPair : OpData 2 :=
  { nx := 1, ny := 2, nz := 1, lx := ⟨![0, 1], ![1, 0]⟩, ly := ⟨![0, 1], ![1, 1]⟩, nfb := 1, kpg := fun _ => exOne.kpg, epsInv := fun _ => exOne.epsInv,
    muInv := none, Wf := exOne.Wf, Wb := exOne.Wb }

theorem exPair_same : SameProblem exPair exOne where
  points := rfl
  nfb := rfl
  forward := rfl
  backward := rfl
  rows := by
    refine ⟨fun r => by fin_cases r <;> simp [exPair], fun x hx => ?_⟩
    have hx : x < 1 := hx
    interval_cases x
    exact ⟨0, by simp [exPair], fun r hr => by fin_cases r <;> simp_all [exPair]⟩
  columns := by
    refine ⟨fun r => by fin_cases r <;> simp [exPair], fun x hx => ?_⟩
    have hx : x < 2 := hx
    interval_cases x
    · exact ⟨0, by simp [exPair], fun r hr => by fin_cases r <;> simp_all [exPair]⟩
    · exact ⟨1, by simp [exPair], fun r hr => by fin_cases r <;> simp_all [exPair]⟩
  rank := by simp [exPair]
  vectors := fun r a _ => rfl
  eps := fun r y _ x _ z _ => rfl
  mu := trivial

theorem exOne_eigen : EigenBand exOne (band 1 (fun a => if a = 0 then 1 else 0) 0) 4 := by
  constructor
  · intro G hG
    have hG : G < 2 := hG
    interval_cases G <;>
    simp [bandMaxwell, bandMuinv, bandOp, exOne, colOp, transform, Maxwell.OpData.N, band, crossT2c, crossC2t, HMat.mulVec, Finset.sum_range_succ] <;>
    norm_num [Complex.ext_iff]
  · simp [bandMuinv, exOne, Maxwell.Spec.inner, Maxwell.OpData.N, band, hermT, Finset.sum_range_succ]

example : (fieldEnergy exPair 'd' 8 (fun r => Field.toReals (getD exPair 1 (fun r a => if r = 0 ∧ a = 0 then 1 else 0) (fun _ _ => 3) (fun _ _ => 5)
    (fun _ _ => 7) (fun _ => Real.sqrt 4) 8 0 r))).1 = 1 := by
  refine (C47_parallel_partial exPair_same (by decide) ?_ ?_ (fun _ => ⟨2, 0, 0⟩) ?_ (p := 1) (H := fun a => if a = 0 then 1 else 0) ?_ _ _ _ _ 4 8
    (by norm_num) (b := 0) (by omega) exOne_eigen).2 (by norm_num) rfl
  · intro G hG r hr
    simp only [exOne]
    split_ifs <;> simp
  · intro G hG G' hG'
    have hG : G < 2 := hG
    have hG' : G' < 2 := hG'
    have hN : exOne.N = 2 := rfl
    rw [hN]
    interval_cases G <;> interval_cases G' <;> simp [exOne, Finset.sum_range_succ] <;> norm_num
  · intro G _
    constructor <;> simp [exOne] <;> norm_num
    ext <;> simp [V3.cross]
  · intro r a ha
    fin_cases r
    · simp [exPair]
    · simp [exPair] at ha

end Mpb.Dist

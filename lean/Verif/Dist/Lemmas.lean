import Verif.Dist.Spec
import Verif.Maxwell.OperatorProps
import Verif.Parity.Lemmas
import Verif.Parity.Expect

/-! # Lemmas for C94 -/

namespace Mpb.Dist

open Mpb.Maxwell Mpb.Maxwell.Spec Mpb.Parity Mpb.Dist.Spec

variable {P : ℕ}

/-- A sum over all rows, process by process. -/
theorem sum_cover {α : Type*} [AddCommMonoid α] {l : Layout P} {n : ℕ} (h : Covers l n) (g : ℕ → α) :
    ∑ r, ∑ i ∈ Finset.range (l.size r), g (l.start r + i) = ∑ x ∈ Finset.range n, g x := by
  classical
  have h1 : ∀ x ∈ Finset.range n, g x = ∑ r : Fin P, if l.start r ≤ x ∧ x < l.start r + l.size r then g x else 0 := by
    intro x hx
    obtain ⟨r, hr, hu⟩ := h.owner x (Finset.mem_range.1 hx)
    rw [Finset.sum_eq_single r]
    · rw [if_pos hr]
    · intro s _ hs
      exact if_neg fun e => hs (hu s e)
    · intro e; exact absurd (Finset.mem_univ r) e
  rw [Finset.sum_congr rfl h1, Finset.sum_comm]
  refine Finset.sum_congr rfl fun r _ => ?_
  rw [← Finset.sum_filter]
  have h2 : (Finset.range n).filter (fun x => l.start r ≤ x ∧ x < l.start r + l.size r) = Finset.Ico (l.start r) (l.start r + l.size r) := by
    ext x
    simp only [Finset.mem_filter, Finset.mem_range, Finset.mem_Ico]
    constructor
    · exact fun e => e.2
    · intro e
      have := h.inside r (by omega)
      exact ⟨by omega, e⟩
  rw [h2, Finset.sum_Ico_eq_sum_range]
  simp

theorem sum_rows' {α : Type*} [AddCommMonoid α] (n m : ℕ) (f : ℕ → α) :
    ∑ i ∈ Finset.range n, ∑ j ∈ Finset.range m, f (i * m + j) = ∑ G ∈ Finset.range (n * m), f G := by
  induction n with
  | zero => simp
  | succ n ih => rw [Finset.sum_range_succ, ih, Nat.succ_mul, Finset.sum_range_add]

/-- A sum over all plane waves, process by process. -/
theorem sum_pieces {α : Type*} [AddCommMonoid α] {l : Layout P} {n : ℕ} (h : Covers l n) (m : ℕ) (g : ℕ → α) :
    ∑ r, ∑ i ∈ Finset.range (l.size r * m), g (l.start r * m + i) = ∑ x ∈ Finset.range (n * m), g x := by
  rw [← sum_rows', ← sum_cover h]
  refine Finset.sum_congr rfl fun r _ => ?_
  rw [← sum_rows']
  refine Finset.sum_congr rfl fun i _ => Finset.sum_congr rfl fun j _ => ?_
  congr 1; ring

theorem point_eq (l : Layout P) {nx ny nz : ℕ} (r : Fin P) {x y z : ℕ} (hx : x < nx) (hz : z < nz) :
    point l nx ny nz r ((y * nx + x) * nz + z) = (x * ny + (l.start r + y)) * nz + z := by
  have e1 : ((y * nx + x) * nz + z) / nz = y * nx + x := by
    rw [Nat.add_comm, Nat.add_mul_div_right _ _ (by omega), Nat.div_eq_of_lt hz, Nat.zero_add]
  have e2 : ((y * nx + x) * nz + z) % nz = z := by
    rw [Nat.add_comm, Nat.add_mul_mod_self_right, Nat.mod_eq_of_lt hz]
  have e3 : (y * nx + x) / nx = y := by
    rw [Nat.add_comm, Nat.add_mul_div_right _ _ (by omega), Nat.div_eq_of_lt hx, Nat.zero_add]
  have e4 : (y * nx + x) % nx = x := by
    rw [Nat.add_comm, Nat.add_mul_mod_self_right, Nat.mod_eq_of_lt hx]
  unfold point
  rw [e1, e2, e3, e4]

theorem exists_point {m nx nz j : ℕ} (hj : j < m * nx * nz) : ∃ y < m, ∃ x < nx, ∃ z < nz, j = (y * nx + x) * nz + z := by
  obtain ⟨i, hi, z, hz, rfl⟩ := exists_od_ld hj
  obtain ⟨y, hy, x, hx, rfl⟩ := exists_od_ld hi
  exact ⟨y, hy, x, hx, z, hz, rfl⟩

theorem point_lt {l : Layout P} {nx ny nz : ℕ} (h : Covers l ny) {r : Fin P} {j : ℕ} (hj : j < l.size r * nx * nz) :
    point l nx ny nz r j < nx * ny * nz := by
  obtain ⟨y, hy, x, hx, z, hz, rfl⟩ := exists_point hj
  rw [point_eq l r hx hz]
  have := h.inside r (by omega)
  exact rowMajor_lt (rowMajor_lt hx (by omega)) hz

/-- A sum over all grid points, process by process. -/
theorem sum_points {α : Type*} [AddCommMonoid α] {l : Layout P} {nx ny nz : ℕ} (h : Covers l ny) (g : ℕ → α) :
    ∑ r, ∑ j ∈ Finset.range (l.size r * nx * nz), g (point l nx ny nz r j) = ∑ i ∈ Finset.range (nx * ny * nz), g i := by
  have e1 : ∀ r, ∑ j ∈ Finset.range (l.size r * nx * nz), g (point l nx ny nz r j) =
      ∑ y ∈ Finset.range (l.size r), ∑ x ∈ Finset.range nx, ∑ z ∈ Finset.range nz, g ((x * ny + (l.start r + y)) * nz + z) := by
    intro r
    rw [← sum_rows', ← sum_rows']
    refine Finset.sum_congr rfl fun y _ => Finset.sum_congr rfl fun x hx => Finset.sum_congr rfl fun z hz => ?_
    rw [point_eq l r (Finset.mem_range.1 hx) (Finset.mem_range.1 hz)]
  rw [Finset.sum_congr rfl fun r _ => e1 r]
  rw [sum_cover h fun y => ∑ x ∈ Finset.range nx, ∑ z ∈ Finset.range nz, g ((x * ny + y) * nz + z), Finset.sum_comm]
  rw [← sum_rows', ← sum_rows']

/-- Pieces seen band by band. -/
theorem pieces_band {l : Layout P} {m p : ℕ} {X : ℕ → ℂ} {Xs : Fin P → ℕ → ℂ} :
    Pieces l (m * (2 * p)) X Xs ↔ ∀ r, ∀ G < l.size r * m, ∀ b < p, band p (Xs r) b G = band p X b (l.start r * m + G) := by
  have e : ∀ r G c b : ℕ, r * (m * (2 * p)) + ((G * 2 + c) * p + b) = ((r * m + G) * 2 + c) * p + b := fun r G c b => by ring
  constructor
  · intro h r G hG b hb
    have k : ∀ c < 2, (G * 2 + c) * p + b < l.size r * (m * (2 * p)) := by
      intro c hc
      have := row_lt hG hc hb
      calc _ < _ := this
        _ = _ := by ring
    have a0 := h r _ (k 0 (by omega))
    have a1 := h r _ (k 1 (by omega))
    rw [e] at a0 a1
    exact Prod.ext a0 a1
  · intro h r a ha
    have ha' : a < l.size r * m * 2 * p := by
      calc a < _ := ha
        _ = _ := by ring
    obtain ⟨i, hi, b, hb, rfl⟩ := exists_od_ld ha'
    obtain ⟨G, hG, c, hc, rfl⟩ := exists_od_ld hi
    have := h r G hG b hb
    rw [e]
    interval_cases c
    · exact congrArg Prod.fst this
    · exact congrArg Prod.snd this

theorem transposed_point {α : Type*} {l : Layout P} {nx ny nz : ℕ} {M : ℕ → α} {Ms : Fin P → ℕ → α} (h : TransposedPieces l nx ny nz M Ms)
    {r : Fin P} {j : ℕ} (hj : j < l.size r * nx * nz) : Ms r j = M (point l nx ny nz r j) := by
  obtain ⟨y, hy, x, hx, z, hz, rfl⟩ := exists_point hj
  rw [h r y hy x hx z hz, point_eq l r hx hz]

/-! ## The transforms -/

theorem fft_index {num i b c : ℕ} (hb : b < num) (hc : c < 3) :
    (3 * (i * num + b) + c) / (num * 3) = i ∧ (3 * (i * num + b) + c) % (num * 3) = b * 3 + c := by
  have e : 3 * (i * num + b) + c = i * (num * 3) + (b * 3 + c) := by ring
  have hlt : b * 3 + c < num * 3 := by omega
  rw [e]
  constructor
  · rw [Nat.add_comm, Nat.add_mul_div_right _ _ (by omega), Nat.div_eq_of_lt hlt, Nat.zero_add]
  · rw [Nat.add_comm, Nat.add_mul_mod_self_right, Nat.mod_eq_of_lt hlt]

theorem fft_lt {n num i b c : ℕ} (hi : i < n) (hb : b < num) (hc : c < 3) : 3 * (i * num + b) + c < n * (num * 3) := by
  have e : 3 * (i * num + b) + c = i * (num * 3) + (b * 3 + c) := by ring
  rw [e]
  exact rowMajor_lt hi (by omega)

theorem fftForward_apply (W : ℕ → ℕ → ℂ) (lx ly : Layout P) {nx ny nz num : ℕ} (inp out : Fin P → ℕ → ℂ) {r : Fin P} {j b c : ℕ}
    (hj : j < ly.size r * nx * nz) (hb : b < num) (hc : c < 3) :
    fftForward W lx ly nx ny nz (num * 3) inp out r (3 * (j * num + b) + c) =
      ∑ s, ∑ i ∈ Finset.range (lx.size s * (ny * nz)), W (point ly nx ny nz r j) (lx.start s * (ny * nz) + i) * inp s (3 * (i * num + b) + c) := by
  unfold fftForward
  obtain ⟨e1, e2⟩ := fft_index (i := j) hb hc
  rw [if_pos (fft_lt hj hb hc), e1, e2]
  refine Finset.sum_congr rfl fun s _ => ?_
  rw [Nat.mul_assoc]
  refine Finset.sum_congr rfl fun i _ => ?_
  congr 2; ring

theorem fftBackward_apply (W : ℕ → ℕ → ℂ) (lx ly : Layout P) {nx ny nz num : ℕ} (inp out : Fin P → ℕ → ℂ) {r : Fin P} {G b c : ℕ}
    (hG : G < lx.size r * (ny * nz)) (hb : b < num) (hc : c < 3) :
    fftBackward W lx ly nx ny nz (num * 3) inp out r (3 * (G * num + b) + c) =
      ∑ s, ∑ j ∈ Finset.range (ly.size s * nx * nz), W (lx.start r * (ny * nz) + G) (point ly nx ny nz s j) * inp s (3 * (j * num + b) + c) := by
  unfold fftBackward
  obtain ⟨e1, e2⟩ := fft_index (i := G) hb hc
  rw [if_pos (by rw [Nat.mul_assoc (lx.size r)]; exact fft_lt hG hb hc), e1, e2]
  refine Finset.sum_congr rfl fun s _ => Finset.sum_congr rfl fun i _ => ?_
  congr 2; ring

theorem dims_of {d : OpData P} {D : Maxwell.OpData} (h : SameProblem d D) (r : Fin P) :
    d.od r * d.ld = d.lx.size r * (d.ny * d.nz) := by
  obtain ⟨hy, hz, hr⟩ := h.rank
  have := dims_mul ⟨d.lx.size r, d.ny, d.nz⟩
  unfold OpData.od OpData.ld
  unfold Grid.otherDims Grid.lastDim at this
  unfold Grid.lastDim
  simp only at this ⊢
  by_cases h1 : d.nz = 1
  · rw [if_pos h1, if_neg (by omega)] at this ⊢
    rw [this]; ring
  · rw [if_neg h1] at this ⊢
    rw [this]; ring

/-- One chunk of bands on all processes. -/
theorem around_apply (ex : KData → ℂ → ℂ → V3 ℂ) (co : KData → V3 ℂ → ℝ → ℂ × ℂ) {d : OpData P} {D : Maxwell.OpData} (h : SameProblem d D)
    {M : ℕ → HMat} {Ms : Fin P → ℕ → HMat} (hM : TransposedPieces d.ly d.nx d.ny d.nz M Ms) (s : ℝ) {p : ℕ} {x : ℕ → ℕ → ℂ × ℂ}
    (Hin buf Hout : Fin P → ℕ → ℂ) {start num : ℕ} (hp : start + num ≤ p)
    (hin : ∀ r, ∀ G < d.lx.size r * (d.ny * d.nz), ∀ b < num, band p (Hin r) (start + b) G = x b (d.lx.start r * (d.ny * d.nz) + G)) :
    (∀ r, ∀ G < d.lx.size r * (d.ny * d.nz), ∀ b < num, band p (around ex co d Ms s p Hin buf Hout start num r) (start + b) G =
      colOp ex co D M s (x b) (d.lx.start r * (d.ny * d.nz) + G)) ∧
    (∀ r, ∀ a, (∀ G < d.lx.size r * (d.ny * d.nz), ∀ b < num, ∀ c < 2, a ≠ (G * 2 + c) * p + (start + b)) →
      around ex co d Ms s p Hin buf Hout start num r a = Hout r a) := by
  set m := d.ny * d.nz with hm
  have hN : D.N = d.nx * m := by rw [Maxwell.OpData.N, h.points, hm]; ring
  unfold around
  set f := fftForward d.Wf d.lx d.ly d.nx d.ny d.nz (num * 3) (fun r => fillFft ex (d.od r) d.ld (d.kpg r) p (Hin r) (buf r) start num) buf with hf
  set e := fun r => eFromD (d.out r) num (Ms r) (f r) with he
  have st := fun r => storeBands_apply co (od := d.od r) (ld := d.ld) (d.kpg r)
    (fftBackward d.Wb d.lx d.ly d.nx d.ny d.nz (num * 3) e e r) (Hout r) hp s
  simp only [dims_of h, ← hm] at st
  refine ⟨fun r G hG b hb => ?_, fun r => (st r).2⟩
  refine ((st r).1 G hG b hb).trans ?_
  set T := fun i => transform D.Wf D.N (fun G => ex (D.kpg G) (x b G).1 (x b G).2) i with hT
  have ff : ∀ s, ∀ j < d.ly.size s * d.nx * d.nz, ∀ c < 3, f s (3 * (j * num + b) + c) = (T (point d.ly d.nx d.ny d.nz s j)).get c := by
    intro s j hj c hc
    rw [hf, fftForward_apply d.Wf d.lx d.ly _ _ hj hb hc]
    have : ∀ t : Fin P, ∀ i ∈ Finset.range (d.lx.size t * m),
        d.Wf (point d.ly d.nx d.ny d.nz s j) (d.lx.start t * m + i) * fillFft ex (d.od t) d.ld (d.kpg t) p (Hin t) (buf t) start num (3 * (i * num + b) + c)
          = (fun G => D.Wf (point d.ly d.nx d.ny d.nz s j) G * (ex (D.kpg G) (x b G).1 (x b G).2).get c) (d.lx.start t * m + i) := by
      intro t i hi
      have hi := Finset.mem_range.1 hi
      rw [fillFft_apply ex (d.kpg t) p (Hin t) (buf t) start (by rw [dims_of h]; exact hi) hb hc, hin t i hi b hb, h.vectors t i hi, h.forward]
    rw [Finset.sum_congr rfl fun t _ => Finset.sum_congr rfl (this t), sum_pieces h.rows m (fun G => D.Wf (point d.ly d.nx d.ny d.nz s j) G * (ex (D.kpg G) (x b G).1 (x b G).2).get c), ← hN]
    interval_cases c <;> rfl
  have ee : ∀ s, ∀ j < d.ly.size s * d.nx * d.nz, ∀ c < 3, e s (3 * (j * num + b) + c) =
      ((M (point d.ly d.nx d.ny d.nz s j)).mulVec (T (point d.ly d.nx d.ny d.nz s j))).get c := by
    intro s j hj c hc
    rw [he]
    refine (eFromD_apply (n := d.out s) (Ms s) (f s) hj hb c hc).trans ?_
    rw [ff s j hj 0 (by omega), ff s j hj 1 (by omega), ff s j hj 2 (by omega), transposed_point hM hj]
    rfl
  have hg : ∀ c < 3, fftBackward d.Wb d.lx d.ly d.nx d.ny d.nz (num * 3) e e r (3 * (G * num + b) + c) =
      (transform D.Wb D.N (fun i => (M i).mulVec (T i)) (d.lx.start r * m + G)).get c := by
    intro c hc
    rw [fftBackward_apply d.Wb d.lx d.ly _ _ hG hb hc]
    have : ∀ s : Fin P, ∀ j ∈ Finset.range (d.ly.size s * d.nx * d.nz),
        d.Wb (d.lx.start r * (d.ny * d.nz) + G) (point d.ly d.nx d.ny d.nz s j) * e s (3 * (j * num + b) + c)
          = (fun i => D.Wb (d.lx.start r * m + G) i * ((M i).mulVec (T i)).get c) (point d.ly d.nx d.ny d.nz s j) := by
      intro s j hj
      rw [ee s j (Finset.mem_range.1 hj) c hc, h.backward]
    rw [Finset.sum_congr rfl fun t _ => Finset.sum_congr rfl (this t), sum_points h.columns (fun i => D.Wb (d.lx.start r * m + G) i * ((M i).mulVec (T i)).get c)]
    have hN2 : d.nx * d.ny * d.nz = D.N := by rw [hN, hm]; ring
    rw [hN2]
    interval_cases c <;> rfl
  rw [hg 0 (by omega), hg 1 (by omega), hg 2 (by omega), h.vectors r G hG]
  rfl

/-- The whole band loop on all processes, given what each chunk does. -/
theorem chunks_apply {p nfb : ℕ} (n : Fin P → ℕ) (hn : 0 < nfb) (step : (Fin P → ℕ → ℂ) → ℕ × ℕ → (Fin P → ℕ → ℂ)) (A : Fin P → ℕ → ℕ → ℂ × ℂ)
    (hstep : ∀ (X : Fin P → ℕ → ℂ) (ch : ℕ × ℕ), ch.1 + ch.2 ≤ p →
      (∀ r, ∀ G < n r, ∀ b < ch.2, band p (step X ch r) (ch.1 + b) G = A r (ch.1 + b) G) ∧
      (∀ r a, (∀ G < n r, ∀ b < ch.2, ∀ c < 2, a ≠ (G * 2 + c) * p + (ch.1 + b)) → step X ch r a = X r a)) (Xout : Fin P → ℕ → ℂ) :
    let R := (bandChunks nfb p 0).foldl step Xout
    ∀ r, (∀ b < p, ∀ G < n r, band p (R r) b G = A r b G) ∧ (∀ a, n r * 2 * p ≤ a → R r a = Xout r a) := by
  intro R r
  classical
  -- the foldl of process r, with the other processes' arrays supplied along the way
  have key : ∀ (l : List (ℕ × ℕ)) (X : Fin P → ℕ → ℂ), (∀ ch ∈ l, ch.1 + ch.2 ≤ p) →
      (∀ a, (∃ ch ∈ l, ∃ G < n r, ∃ b < ch.2, ∃ c < 2, a = (G * 2 + c) * p + (ch.1 + b)) →
        (l.foldl step X) r a = (if a / p % 2 = 0 then (A r (a % p) (a / p / 2)).1 else (A r (a % p) (a / p / 2)).2)) ∧
      (∀ a, (∀ ch ∈ l, ∀ G < n r, ∀ b < ch.2, ∀ c < 2, a ≠ (G * 2 + c) * p + (ch.1 + b)) → (l.foldl step X) r a = X r a) := by
    intro l
    induction l with
    | nil =>
      intro X _
      exact ⟨fun a ⟨ch, hch, _⟩ => absurd hch (by simp), fun a _ => rfl⟩
    | cons ch l ih =>
      intro X hl
      have hch := hl ch (by simp)
      obtain ⟨i1, i2⟩ := ih (step X ch) fun c hc => hl c (by simp [hc])
      obtain ⟨s1, s2⟩ := hstep X ch hch
      rw [List.foldl_cons]
      refine ⟨fun a ha => ?_, fun a ha => ?_⟩
      · by_cases hlater : ∃ ch ∈ l, ∃ G < n r, ∃ b < ch.2, ∃ c < 2, a = (G * 2 + c) * p + (ch.1 + b)
        · exact i1 a hlater
        · have hl2 := hlater
          push Not at hl2
          rw [i2 a hl2]
          obtain ⟨ch', hc', G, hG, b, hb, c, hc, rfl⟩ := ha
          rcases List.mem_cons.1 hc' with rfl | hc'
          · have hp : 0 < p := by omega
            have e1 : ((G * 2 + c) * p + (ch'.1 + b)) / p = G * 2 + c := by
              rw [Nat.add_comm, Nat.add_mul_div_right _ _ hp, Nat.div_eq_of_lt (by omega), Nat.zero_add]
            have e2 : ((G * 2 + c) * p + (ch'.1 + b)) % p = ch'.1 + b := by
              rw [Nat.add_comm, Nat.add_mul_mod_self_right, Nat.mod_eq_of_lt (by omega)]
            have e3 : (G * 2 + c) / 2 = G := by omega
            have e4 : (G * 2 + c) % 2 = c := by omega
            have := s1 r G hG b hb
            rw [e1, e2, e3, e4, ← this]
            interval_cases c <;> rfl
          · exact absurd ⟨ch', hc', G, hG, b, hb, c, hc, rfl⟩ hlater
      · rw [i2 a fun c hc => ha c (by simp [hc]), s2 r a (ha ch (by simp))]
  obtain ⟨k1, k2⟩ := key (bandChunks nfb p 0) Xout fun ch hm => (bandChunks_bound hm).1
  refine ⟨fun b hb G hG => ?_, fun a ha => k2 a ?_⟩
  · obtain ⟨ch, hm, c1, c2⟩ := bandChunks_cover hn (Nat.zero_le b) hb
    have hp : 0 < p := by omega
    have val : ∀ c < 2, R r ((G * 2 + c) * p + b) = if c = 0 then (A r b G).1 else (A r b G).2 := by
      intro c hc
      refine (k1 _ ⟨ch, hm, G, hG, b - ch.1, by omega, c, hc, by congr 1; omega⟩).trans ?_
      have e1 : ((G * 2 + c) * p + b) / p = G * 2 + c := by
        rw [Nat.add_comm, Nat.add_mul_div_right _ _ hp, Nat.div_eq_of_lt (by omega), Nat.zero_add]
      have e2 : ((G * 2 + c) * p + b) % p = b := by
        rw [Nat.add_comm, Nat.add_mul_mod_self_right, Nat.mod_eq_of_lt (by omega)]
      have e3 : (G * 2 + c) / 2 = G := by omega
      have e4 : (G * 2 + c) % 2 = c := by omega
      simp only [e1, e2, e3, e4]
    exact Prod.ext (val 0 (by omega)) (val 1 (by omega))
  · rintro ch hm G hG b hb c hc rfl
    have := (bandChunks_bound hm).1
    have : (G * 2 + c) * p + (ch.1 + b) < n r * 2 * p := rowMajor_lt (rowMajor_lt hG hc) (by omega)
    omega

end Mpb.Dist

import Verif.Dist.Ops

/-! # C94: several processes compute what one process computes -/

namespace Mpb.Dist

open Mpb.Maxwell Mpb.Maxwell.Spec Mpb.Parity Mpb.Dist.Spec

variable {P : ℕ}

/-! ## The operator -/

/-- C94 (Maxwell operator).  The pieces of `maxwell_operator` are the pieces of the serial result, for every distribution of the grid,
every batch size of the FFT, every old content of the buffers, with or without permeability.  Nothing else is written. -/
theorem C94_operator (d : OpData P) (D : Maxwell.OpData) (h : SameProblem d D) (hn : 0 < d.nfb) (p : ℕ) (Xin : ℕ → ℂ) (Xins : Fin P → ℕ → ℂ)
    (hX : Pieces d.lx (d.ny * d.nz * (2 * p)) Xin Xins) (bufs : ℕ → Fin P → ℕ → ℂ) (sbufs : ℕ → ℕ → ℂ) (Xouts : Fin P → ℕ → ℂ) (Xout : ℕ → ℂ) :
    ∃ R Rs, Maxwell.maxwellOperator D p sbufs Xin Xout = some R ∧ maxwellOperator d p bufs Xins Xouts = some Rs ∧
      Pieces d.lx (d.ny * d.nz * (2 * p)) R Rs ∧ ∀ r a, d.lx.size r * (d.ny * d.nz * (2 * p)) ≤ a → Rs r a = Xouts r a := by
  obtain ⟨R, hR, hb, -⟩ := C04_bands D p (h.nfb ▸ hn) sbufs Xin Xout
  have hc := chunks_apply (p := p) (fun r => d.lx.size r * (d.ny * d.nz)) hn (fun X ch => operatorStep d p Xins (bufs ch.1) X ch)
    (fun r b G => bandMaxwell D (band p Xin b) (d.lx.start r * (d.ny * d.nz) + G))
    (fun X ch hch => operatorStep_apply h hX (bufs ch.1) X ch hch) Xouts
  refine ⟨R, _, hR, by unfold maxwellOperator; rw [if_neg (by omega)], pieces_of_chunks h hb fun r => (hc r).1, fun r a ha => (hc r).2 a ?_⟩
  calc _ = d.lx.size r * (d.ny * d.nz * (2 * p)) := by ring
    _ ≤ a := ha

/-- C94 (inverse permeability).  The same for `maxwell_muinv_operator`. -/
theorem C94_muinv (d : OpData P) (D : Maxwell.OpData) (h : SameProblem d D) (hn : 0 < d.nfb) (p : ℕ) (Xin : ℕ → ℂ) (Xins : Fin P → ℕ → ℂ)
    (hX : Pieces d.lx (d.ny * d.nz * (2 * p)) Xin Xins) (bufs : ℕ → Fin P → ℕ → ℂ) (sbufs : ℕ → ℕ → ℂ) (Xouts : Fin P → ℕ → ℂ) (Xout : ℕ → ℂ) :
    ∃ R Rs, Maxwell.muinvOperator D p sbufs Xin Xout = some R ∧ muinvOperator d p bufs Xins Xouts = some Rs ∧
      Pieces d.lx (d.ny * d.nz * (2 * p)) R Rs ∧ ∀ r a, d.lx.size r * (d.ny * d.nz * (2 * p)) ≤ a → Rs r a = Xouts r a := by
  obtain ⟨R, hR, hb, -⟩ := C04_muinv_bands D p (h.nfb ▸ hn) sbufs Xin Xout
  have hc := chunks_apply (p := p) (fun r => d.lx.size r * (d.ny * d.nz)) hn (fun X ch => muinvStep d p Xins (bufs ch.1) X ch)
    (fun r b G => bandMuinv D (band p Xin b) (d.lx.start r * (d.ny * d.nz) + G))
    (fun X ch hch => by
      have hin : ∀ r, ∀ G < d.lx.size r * (d.ny * d.nz), ∀ b < ch.2, band p (Xins r) (ch.1 + b) G =
        (fun b => band p Xin (ch.1 + b)) b (d.lx.start r * (d.ny * d.nz) + G) := fun r G hG b hb => pieces_band.1 hX r G hG (ch.1 + b) (by omega)
      have hmu := h.mu
      unfold bandMuinv muinvStep
      rw [sameN h]
      revert hmu
      cases hD : D.muInv with
      | none =>
        cases hd : d.muInv with
        | some Ms => intro hmu; exact hmu.elim
        | none =>
          intro _
          refine ⟨fun r G hG b hb => ?_, fun r a ha => ?_⟩
          · refine Eq.trans ?_ (hin r G hG b hb)
            dsimp only
            rw [Nat.mul_assoc (d.lx.size r)]
            exact (copySlice_apply (Xins r) (X r) ch hch).1 G hG b hb
          · have := (copySlice_apply (N := d.lx.size r * (d.ny * d.nz)) (Xins r) (X r) ch hch).2 a ha
            rw [← Nat.mul_assoc (d.lx.size r)] at this
            exact this
      | some M =>
        cases hd : d.muInv with
        | none => intro hmu; exact hmu.elim
        | some Ms =>
          intro hmu
          exact around_apply t2c c2t h hmu (1 / (D.N : ℝ)) Xins (bufs ch.1) X hch hin) Xouts
  refine ⟨R, _, hR, by unfold muinvOperator; rw [if_neg (by omega)], pieces_of_chunks h hb fun r => (hc r).1, fun r a ha => (hc r).2 a ?_⟩
  calc _ = d.lx.size r * (d.ny * d.nz * (2 * p)) := by ring
    _ ≤ a := ha

/-- C94 (group velocities).  The same for `maxwell_ucross_op`. -/
theorem C94_ucross (d : OpData P) (D : Maxwell.OpData) (h : SameProblem d D) (hn : 0 < d.nfb) (u : V3 ℝ) (p : ℕ) (Xin : ℕ → ℂ)
    (Xins : Fin P → ℕ → ℂ) (hX : Pieces d.lx (d.ny * d.nz * (2 * p)) Xin Xins) (bufs : ℕ → Fin P → ℕ → ℂ) (sbufs : ℕ → ℕ → ℂ)
    (Xouts : Fin P → ℕ → ℂ) (Xout : ℕ → ℂ) :
    ∃ R Rs, Maxwell.ucrossOperator D u p sbufs Xin Xout = some R ∧ ucrossOperator d u p bufs Xins Xouts = some Rs ∧
      Pieces d.lx (d.ny * d.nz * (2 * p)) R Rs ∧ ∀ r a, d.lx.size r * (d.ny * d.nz * (2 * p)) ≤ a → Rs r a = Xouts r a := by
  obtain ⟨R, hR, hb, -⟩ := C04_ucross_bands D u p (h.nfb ▸ hn) sbufs Xin Xout
  have hc := chunks_apply (p := p) (fun r => d.lx.size r * (d.ny * d.nz)) hn (fun X ch =>
      around (ucrossT2c u) crossC2t d d.epsInv (-1 / (d.N : ℝ)) p Xins (bufs ch.1) X ch.1 ch.2)
    (fun r b G => colOp (ucrossT2c u) crossC2t D D.epsInv (-1 / (D.N : ℝ)) (band p Xin b) (d.lx.start r * (d.ny * d.nz) + G))
    (fun X ch hch => by
      rw [sameN h]
      exact around_apply (ucrossT2c u) crossC2t h h.eps (-1 / (D.N : ℝ)) (x := fun b => band p Xin (ch.1 + b)) Xins (bufs ch.1) X hch
        fun r G hG b hb => pieces_band.1 hX r G hG (ch.1 + b) (by omega)) Xouts
  refine ⟨R, _, hR, by unfold ucrossOperator; rw [if_neg (by omega)], pieces_of_chunks h hb fun r => (hc r).1, fun r a ha => (hc r).2 a ?_⟩
  calc _ = d.lx.size r * (d.ny * d.nz * (2 * p)) := by ring
    _ ≤ a := ha

/-! ## Wave vectors -/

/-- C94 (wave vectors).  Each process computes its part of the list of wave vectors. -/
theorem C94_wavevectors (l : Layout P) (nx ny nz : ℕ) (h : Covers l nx) (G1 G2 G3 k : V3 ℝ) (r : Fin P) :
    (updateKLocal nx ny nz G1 G2 G3 k (l.start r) (l.size r)).length = l.size r * (ny * nz) ∧
    ∀ i < l.size r * (ny * nz), (updateKLocal nx ny nz G1 G2 G3 k (l.start r) (l.size r))[i]? =
      (updateK nx ny nz G1 G2 G3 k)[l.start r * (ny * nz) + i]? := by
  refine ⟨by rw [updateKLocal, List.length_map, length_loop3]; ring, fun i hi => ?_⟩
  rw [← Nat.mul_assoc] at hi
  obtain ⟨x, hx, y, hy, z, hz, rfl⟩ := exists_point hi
  have hin := h.inside r (by omega)
  have e : l.start r * (ny * nz) + ((x * ny + y) * nz + z) = ((l.start r + x) * ny + y) * nz + z := by ring
  rw [e, updateKLocal, updateK, List.getElem?_map, List.getElem?_map, getElem?_loop3 hx hy hz, getElem?_loop3 (by omega) hy hz]
  rfl

/-! ## Products -/

/-- C94 (dot products of columns).  What `evectmatrix_XtY` gives on every process is the product over all plane waves. -/
theorem C94_products (l : Layout P) (nx m p : ℕ) (h : Covers l nx) (X Y : ℕ → ℂ) (Xs Ys : Fin P → ℕ → ℂ)
    (hX : Pieces l (m * (2 * p)) X Xs) (hY : Pieces l (m * (2 * p)) Y Ys) :
    (∀ a < p, ∀ b < p, xty (fun r => l.size r * m * 2) p Xs Ys a b =
      ∑ i ∈ Finset.range (nx * m * 2), starRingEnd ℂ (X (i * p + a)) * Y (i * p + b)) ∧
    (∀ a < p, xtyDiagReal (fun r => l.size r * m * 2) p Xs Ys a =
      (∑ i ∈ Finset.range (nx * m * 2), starRingEnd ℂ (X (i * p + a)) * Y (i * p + a)).re) ∧
    traceXtY (fun r => l.size r * m * 2) p Xs Ys =
      ∑ a ∈ Finset.range p, ∑ i ∈ Finset.range (nx * m * 2), starRingEnd ℂ (X (i * p + a)) * Y (i * p + a) := by
  have hv : ∀ {X : ℕ → ℂ} {Xs : Fin P → ℕ → ℂ}, Pieces l (m * (2 * p)) X Xs → ∀ r, ∀ i < l.size r * m * 2, ∀ a < p,
      Xs r (i * p + a) = X ((l.start r * (m * 2) + i) * p + a) := by
    intro X Xs hX r i hi a ha
    have := rowMajor_lt hi ha
    rw [hX r (i * p + a) (by calc _ < _ := this
                             _ = _ := by ring)]
    congr 1; ring
  refine ⟨fun a ha b hb => ?_, fun a ha => ?_, ?_⟩
  · unfold xty allreduce
    rw [Nat.mul_assoc nx, ← sum_pieces h (m * 2)]
    refine Finset.sum_congr rfl fun r _ => ?_
    rw [← Nat.mul_assoc (l.size r)]
    refine Finset.sum_congr rfl fun i hi => ?_
    rw [hv hX r i (Finset.mem_range.1 hi) a ha, hv hY r i (Finset.mem_range.1 hi) b hb]
  · unfold xtyDiagReal allreduce
    rw [Complex.re_sum, Nat.mul_assoc nx, ← sum_pieces h (m * 2)]
    refine Finset.sum_congr rfl fun r _ => ?_
    rw [← Nat.mul_assoc (l.size r)]
    refine Finset.sum_congr rfl fun i hi => ?_
    rw [hv hX r i (Finset.mem_range.1 hi) a ha, hv hY r i (Finset.mem_range.1 hi) a ha]
    simp [reDot]
  · unfold traceXtY allreduce
    rw [Finset.sum_comm, sum_rows' (nx * m * 2) p fun i => starRingEnd ℂ (X i) * Y i]
    have e : nx * m * 2 * p = nx * (m * (2 * p)) := by ring
    rw [e, ← sum_pieces h (m * (2 * p))]
    refine Finset.sum_congr rfl fun r _ => ?_
    have e : l.size r * m * 2 * p = l.size r * (m * (2 * p)) := by ring
    simp only [e]
    refine Finset.sum_congr rfl fun i hi => ?_
    rw [hX r i (Finset.mem_range.1 hi), hY r i (Finset.mem_range.1 hi)]

/-- C94 (combination of bands).  `X := a X + b Y S` with the same matrix `S` on every process. -/
theorem C94_combine (l : Layout P) (m p : ℕ) (a b : ℝ) (S : ℕ → ℕ → ℂ) (X Y : ℕ → ℂ) (Xs Ys : Fin P → ℕ → ℂ)
    (hX : Pieces l (m * (2 * p)) X Xs) (hY : Pieces l (m * (2 * p)) Y Ys) :
    Pieces l (m * (2 * p)) (fun i => a * X i + b * ∑ c ∈ Finset.range p, Y (i / p * p + c) * S c (i % p))
      (combine (fun r => l.size r * m * 2) p a b S Ys Xs) := by
  intro r i hi
  unfold combine
  have e1 : l.size r * m * 2 * p = l.size r * (m * (2 * p)) := by ring
  rw [if_pos (by rw [e1]; exact hi), hX r i hi]
  have hp : 0 < p := Nat.pos_of_ne_zero fun e => by subst e; simp at hi
  have e2 : l.start r * (m * (2 * p)) + i = i + l.start r * m * 2 * p := by ring
  have hq : i / p < l.size r * m * 2 := Nat.div_lt_of_lt_mul (by calc i < _ := hi
                                                                 _ = _ := by ring)
  congr 2
  refine Finset.sum_congr rfl fun c hc => ?_
  have hc := Finset.mem_range.1 hc
  have := rowMajor_lt hq hc
  rw [hY r _ (by rw [← e1]; exact this), e2, Nat.add_mul_div_right _ _ hp, Nat.add_mul_mod_self_right]
  congr 2; ring

/-- C94 (deflation).  Every process removes from its part of each band the part along all `q` solved bands, with the products taken over
all plane waves. -/
theorem C94_deflation (l : Layout P) (nx m q py p : ℕ) (hq : q ≤ py) (h : Covers l nx) (Y BY X : ℕ → ℂ) (Ys BYs Xs : Fin P → ℕ → ℂ)
    (hY : Pieces l (m * (2 * py)) Y Ys) (hBY : Pieces l (m * (2 * py)) BY BYs) (hX : Pieces l (m * (2 * p)) X Xs) :
    Pieces l (m * (2 * p)) (fun i => X i - ∑ c ∈ Finset.range q, Y (i / p * py + c) *
        ∑ j ∈ Finset.range (nx * m * 2), starRingEnd ℂ (BY (j * py + c)) * X (j * p + i % p))
      (deflate (fun r => l.size r * m * 2) q py p Ys BYs Xs) := by
  have hv : ∀ {p : ℕ} {X : ℕ → ℂ} {Xs : Fin P → ℕ → ℂ}, Pieces l (m * (2 * p)) X Xs → ∀ r, ∀ i < l.size r * m * 2, ∀ a < p,
      Xs r (i * p + a) = X ((l.start r * (m * 2) + i) * p + a) := by
    intro p X Xs hX r i hi a ha
    have := rowMajor_lt hi ha
    rw [hX r (i * p + a) (by calc _ < _ := this
                             _ = _ := by ring)]
    congr 1; ring
  intro r i hi
  have hp : 0 < p := Nat.pos_of_ne_zero fun e => by subst e; simp at hi
  have e1 : l.size r * m * 2 * p = l.size r * (m * (2 * p)) := by ring
  have e2 : l.start r * (m * (2 * p)) + i = i + l.start r * (m * 2) * p := by ring
  have hqd : i / p < l.size r * m * 2 := Nat.div_lt_of_lt_mul (by calc i < _ := hi
                                                                  _ = _ := by ring)
  unfold deflate
  simp only
  rw [if_pos (by rw [e1]; exact hi), hX r i hi, e2, Nat.add_mul_div_right _ _ hp, Nat.add_mul_mod_self_right]
  congr 1
  refine Finset.sum_congr rfl fun c hc => ?_
  have hc := Finset.mem_range.1 hc
  rw [hv hY r _ hqd c (by omega)]
  congr 1
  · congr 2; ring
  · unfold allreduce
    rw [Nat.mul_assoc nx, ← sum_pieces h (m * 2)]
    refine Finset.sum_congr rfl fun s _ => ?_
    rw [← Nat.mul_assoc (l.size s)]
    refine Finset.sum_congr rfl fun j hj => ?_
    rw [hv hBY s j (Finset.mem_range.1 hj) c (by omega), hv hX s j (Finset.mem_range.1 hj) (i % p) (Nat.mod_lt _ hp)]

/-! ## Constraints -/

/-- C94 (parity constraint).  Each process applies the parity constraint to its part of the bands, and together this is the constraint on
the whole bands: mirrored plane waves are on the same process. -/
theorem C94_parity_constraint (l : Layout P) (nx ny nz : ℕ) (hy : 0 < ny) (hz : 0 < nz) (h : Covers l nx) (parity : BitVec 32) (p : ℕ) (X : ℕ → ℂ)
    (Xs : Fin P → ℕ → ℂ) (hX : Pieces l (ny * nz * (2 * p)) X Xs) :
    Pieces l (ny * nz * (2 * p)) (parityConstraint ⟨nx, ny, nz⟩ parity p X) fun r => parityConstraint ⟨l.size r, ny, nz⟩ parity p (Xs r) := by
  rw [pieces_band] at hX ⊢
  intro r G hG b hb
  have h0 : 0 < l.size r := Nat.pos_of_ne_zero fun e => by rw [e] at hG; simp at hG
  have h1 := h.inside r h0
  have hlt : l.start r * (ny * nz) + G < nx * ny * nz := by
    calc l.start r * (ny * nz) + G < l.start r * (ny * nz) + l.size r * (ny * nz) := by omega
      _ = (l.start r + l.size r) * (ny * nz) := by ring
      _ ≤ nx * (ny * nz) := Nat.mul_le_mul_right _ h1
      _ = _ := by ring
  have hG' : G < l.size r * ny * nz := by rw [Nat.mul_assoc]; exact hG
  rw [(C14_combined ⟨nx, ny, nz⟩ hy hz parity p X).1 b hb _ hlt, (C14_combined ⟨l.size r, ny, nz⟩ hy hz parity p (Xs r)).1 b hb G hG']
  refine axisPart_shift (f := Parity.Spec.flipY ny nz) (fun v => (-v.1, v.2)) (fun x G => rfl) (n := l.size r * (ny * nz))
    (fun G hG => by rw [← Nat.mul_assoc] at hG ⊢; exact flipY_lt hG) (fun G => flipY_shift hy hz _ G) _ _ ?_ G hG
  exact axisPart_shift (f := Parity.Spec.flipZ nz) (fun v => (v.1, -v.2)) (fun x G => rfl) (n := l.size r * (ny * nz))
    (fun G hG => by rw [← Nat.mul_assoc] at hG ⊢; exact flipZ_lt hG) (fun G => flipZ_shift _ G) _ _ (fun G hG => hX r G hG b hb)

/-- C94 (parities of bands).  The parities computed with sums over all processes are those of one process. -/
theorem C94_parities (l : Layout P) (nx ny nz : ℕ) (hy : 0 < ny) (hz : 0 < nz) (h : Covers l nx) (p : ℕ) (X : ℕ → ℂ)
    (Xs : Fin P → ℕ → ℂ) (hX : Pieces l (ny * nz * (2 * p)) X Xs) (b : ℕ) (hb : b < p) :
    zparity l ny nz p Xs b = Parity.zparity ⟨nx, ny, nz⟩ p X b ∧ yparity l ny nz p Xs b = Parity.yparity ⟨nx, ny, nz⟩ p X b := by
  rw [pieces_band] at hX
  have hbz : ∀ r, ∀ i < l.size r * ny, ∀ j < nz, band p (Xs r) b (i * nz + j) = band p X b ((l.start r * ny + i) * nz + j) := by
    intro r i hi j hj
    have := rowMajor_lt hi hj
    rw [hX r _ (by rw [← Nat.mul_assoc]; exact this) b hb]
    congr 1; ring
  have sz : ∀ (F : ℂ × ℂ → ℂ × ℂ → ℝ), ∑ r, ∑ i ∈ Finset.range (l.size r * ny), ∑ j ∈ Finset.range (nz / 2 + 1),
      (if j = mir nz j then (1 : ℝ) else 2) * F (band p (Xs r) b (i * nz + j)) (band p (Xs r) b (i * nz + mir nz j)) =
      ∑ i ∈ Finset.range (nx * ny), ∑ j ∈ Finset.range (nz / 2 + 1),
      (if j = mir nz j then (1 : ℝ) else 2) * F (band p X b (i * nz + j)) (band p X b (i * nz + mir nz j)) := by
    intro F
    rw [← sum_pieces h ny fun i => ∑ j ∈ Finset.range (nz / 2 + 1),
      (if j = mir nz j then (1 : ℝ) else 2) * F (band p X b (i * nz + j)) (band p X b (i * nz + mir nz j))]
    refine Finset.sum_congr rfl fun r _ => Finset.sum_congr rfl fun i hi => Finset.sum_congr rfl fun j hj => ?_
    rw [hbz r i (Finset.mem_range.1 hi) j (visit_lt hz (Finset.mem_range.1 hj)), hbz r i (Finset.mem_range.1 hi) _ (mir_lt hz)]
  have hby : ∀ r, ∀ i < l.size r, ∀ j < ny, ∀ k < nz, band p (Xs r) b ((i * ny + j) * nz + k) = band p X b (((l.start r + i) * ny + j) * nz + k) := by
    intro r i hi j hj k hk
    have := rowMajor_lt (rowMajor_lt hi hj) hk
    rw [hX r _ (by rw [← Nat.mul_assoc]; exact this) b hb]
    congr 1; ring
  have sy : ∀ (F : ℂ × ℂ → ℂ × ℂ → ℝ), ∑ r, ∑ i ∈ Finset.range (l.size r), ∑ j ∈ Finset.range (ny / 2 + 1), ∑ k ∈ Finset.range nz,
      (if (i * ny + j) * nz + k = (i * ny + mir ny j) * nz + k then (1 : ℝ) else 2) *
        F (band p (Xs r) b ((i * ny + j) * nz + k)) (band p (Xs r) b ((i * ny + mir ny j) * nz + k)) =
      ∑ i ∈ Finset.range nx, ∑ j ∈ Finset.range (ny / 2 + 1), ∑ k ∈ Finset.range nz,
      (if (i * ny + j) * nz + k = (i * ny + mir ny j) * nz + k then (1 : ℝ) else 2) *
        F (band p X b ((i * ny + j) * nz + k)) (band p X b ((i * ny + mir ny j) * nz + k)) := by
    intro F
    rw [← sum_cover h fun i => ∑ j ∈ Finset.range (ny / 2 + 1), ∑ k ∈ Finset.range nz,
      (if (i * ny + j) * nz + k = (i * ny + mir ny j) * nz + k then (1 : ℝ) else 2) *
        F (band p X b ((i * ny + j) * nz + k)) (band p X b ((i * ny + mir ny j) * nz + k))]
    refine Finset.sum_congr rfl fun r _ => Finset.sum_congr rfl fun i hi => Finset.sum_congr rfl fun j hj => Finset.sum_congr rfl fun k hk => ?_
    rw [hby r i (Finset.mem_range.1 hi) j (visit_lt hy (Finset.mem_range.1 hj)) k (Finset.mem_range.1 hk),
      hby r i (Finset.mem_range.1 hi) _ (mir_lt hy) k (Finset.mem_range.1 hk)]
    have c : ∀ i : ℕ, ((i * ny + j) * nz + k = (i * ny + mir ny j) * nz + k) ↔ j = mir ny j := by
      intro i
      constructor
      · intro e
        have := (rowMajor_inj (Finset.mem_range.1 hk) (Finset.mem_range.1 hk) e).1
        omega
      · intro e; rw [← e]
    simp only [c]
  constructor
  · have e : Parity.zparity ⟨nx, ny, nz⟩ p X b = (zAcc ⟨nx, ny, nz⟩ p X b).1 / (zAcc ⟨nx, ny, nz⟩ p X b).2 := rfl
    rw [e, zAcc_eq _ hz]
    unfold zparity allreduce
    simp only [fun n Y => zAcc_eq ⟨n, ny, nz⟩ hz p Y b]
    rw [sz fun v w => reDot v.1 w.1 - reDot v.2 w.2, sz fun v w => reDot v.1 v.1 + reDot v.2 v.2]
  · have e : Parity.yparity ⟨nx, ny, nz⟩ p X b = (yAcc ⟨nx, ny, nz⟩ p X b).1 / (yAcc ⟨nx, ny, nz⟩ p X b).2 := rfl
    rw [e, yAcc_eq]
    unfold yparity allreduce
    simp only [yAcc_eq]
    rw [sy fun v w => reDot v.2 w.2 - reDot v.1 w.1, sy fun v w => reDot v.2 v.2 + reDot v.1 v.1]

/-- C94 (k = 0).  The constant bands set by the processes, and the constraint that keeps the others orthogonal to them, are those of one
process. -/
theorem C94_zero_k (l : Layout P) (nx m : ℕ) (hm : 0 < m) (h : Covers l nx) (parity : BitVec 32) (p : ℕ) (X : ℕ → ℂ) (Xs : Fin P → ℕ → ℂ)
    (hX : Pieces l (m * (2 * p)) X Xs) :
    Pieces l (m * (2 * p)) (setConstBands parity (nx * m * 2) p 0 X)
      (fun r => setConstBands parity (l.size r * m * 2) p (l.start r * m) (Xs r)) ∧
    Pieces l (m * (2 * p)) (zeroKConstraint p 0 X) (fun r => zeroKConstraint p (l.start r * m) (Xs r)) := by
  classical
  constructor
  · intro r a ha
    have ha' : a < l.size r * m * 2 * p := by
      calc a < _ := ha
        _ = _ := by ring
    obtain ⟨q, hq, j, hj, rfl⟩ := exists_od_ld ha'
    have h0 : 0 < l.size r := Nat.pos_of_ne_zero fun e => by rw [e] at hq; simp at hq
    have h1 := h.inside r h0
    have e : l.start r * (m * (2 * p)) + (q * p + j) = (l.start r * m * 2 + q) * p + j := by ring
    have hq2 : l.start r * m * 2 + q < nx * m * 2 := by
      calc l.start r * m * 2 + q < l.start r * m * 2 + l.size r * m * 2 := by omega
        _ = (l.start r + l.size r) * (m * 2) := by ring
        _ ≤ nx * (m * 2) := Nat.mul_le_mul_right _ h1
        _ = _ := by ring
    have hx := hX r _ ha
    rw [e] at hx
    beta_reduce
    rw [e, setConstBands_apply parity (l.start r * m) (Xs r) hq hj, setConstBands_apply parity 0 X hq2 hj, hx]
    refine if_congr Iff.rfl (if_congr ?_ rfl rfl) rfl
    simp only [true_and]
    rcases Nat.eq_zero_or_pos (l.start r) with h0 | h0
    · simp [h0]
    · have : 0 < l.start r * m := Nat.mul_pos h0 hm
      constructor
      · intro e; omega
      · rintro (⟨e, -⟩ | ⟨e, -⟩) <;> omega
  · rw [pieces_band] at hX ⊢
    intro r G hG b hb
    have h0 : 0 < l.size r := Nat.pos_of_ne_zero fun e => by rw [e] at hG; simp at hG
    rw [(C17_constraint (l.start r * m + G + 1) p X).1 b hb (l.start r * m + G) (by omega)]
    rcases Nat.eq_zero_or_pos (l.start r) with h0 | h0
    · have e : l.start r * m = 0 := by rw [h0]; simp
      have := hX r G hG b hb
      simp only [e, Nat.zero_add] at this ⊢
      rw [(C17_constraint (G + 1) p (Xs r)).1 b hb G (by omega), this]
    · have h1 : 0 < l.start r * m := Nat.mul_pos h0 hm
      rw [(C17_constraint 0 p (Xs r)).2.2 _ h1, if_neg (by omega), hX r G hG b hb]

end Mpb.Dist

import Verif.Maxwell.Operator
import Verif.Maxwell.Lemmas
import Mathlib.Algebra.BigOperators.Ring.Finset
import Mathlib.Data.Complex.BigOperators

/-! # Lemmas for C04: memory layout of the operator, and specification -/

namespace Mpb.Maxwell

namespace Spec

/-- Band `b` of the band array: the pair of transverse amplitudes for each planewave. -/
def band (p : ℕ) (X : ℕ → ℂ) (b : ℕ) : ℕ → ℂ × ℂ := fun G => (X ((G * 2 + 0) * p + b), X ((G * 2 + 1) * p + b))

/-- Apply a transform matrix to a vector-valued sequence. -/
noncomputable def transform (W : ℕ → ℕ → ℂ) (N : ℕ) (a : ℕ → V3 ℂ) (r : ℕ) : V3 ℂ :=
  ⟨∑ j ∈ Finset.range N, W r j * (a j).x, ∑ j ∈ Finset.range N, W r j * (a j).y, ∑ j ∈ Finset.range N, W r j * (a j).z⟩

/-- Inner product of two bands. -/
noncomputable def inner (N : ℕ) (x y : ℕ → ℂ × ℂ) : ℂ := ∑ G ∈ Finset.range N, hermT (x G) (y G)

end Spec
open Spec

/-- One band through: expand to Cartesian, transform, multiply by a tensor field, transform back, contract. -/
noncomputable def colOp (ex : KData → ℂ → ℂ → V3 ℂ) (co : KData → V3 ℂ → ℝ → ℂ × ℂ) (d : OpData) (M : ℕ → HMat) (s : ℝ)
    (x : ℕ → ℂ × ℂ) (G : ℕ) : ℂ × ℂ :=
  co (d.kpg G) (transform d.Wb d.N (fun r => (M r).mulVec (transform d.Wf d.N (fun G => ex (d.kpg G) (x G).1 (x G).2) r)) G) s

theorem exists_od_ld {od ld G : ℕ} (h : G < od * ld) : ∃ i < od, ∃ j < ld, G = i * ld + j := by
  have hl : 0 < ld := by
    rcases Nat.eq_zero_or_pos ld with h0 | h0
    · subst h0; simp at h
    · exact h0
  refine ⟨G / ld, Nat.div_lt_of_lt_mul (by rw [Nat.mul_comm]; exact h), G % ld, Nat.mod_lt _ hl, ?_⟩
  rw [Nat.div_add_mod']

theorem fillFft_apply (conv : KData → ℂ → ℂ → V3 ℂ) {od ld : ℕ} (kpg : ℕ → KData) (p : ℕ) (Hin buf : ℕ → ℂ) (start : ℕ)
    {num G b c : ℕ} (hG : G < od * ld) (hb : b < num) (hc : c < 3) :
    fillFft conv od ld kpg p Hin buf start num (3 * (G * num + b) + c) =
      (conv (kpg G) (band p Hin (start + b) G).1 (band p Hin (start + b) G).2).get c := by
  obtain ⟨i, hi, j, hj, rfl⟩ := exists_od_ld hG
  unfold fillFft
  simp only [write3]
  rw [foldl_writes]
  have e1 : (i * ld + j) * 2 * p + b + start = ((i * ld + j) * 2 + 0) * p + (start + b) := by ring
  have e2 : (i * ld + j) * 2 * p + b + start + p = ((i * ld + j) * 2 + 1) * p + (start + b) := by ring
  apply writes_of_mem
  · rw [List.mem_flatMap]
    refine ⟨(i, j, b), mem_loop3.2 ⟨hi, hj, hb⟩, ?_⟩
    simp only [e1, band]
    rw [← e1, e2]
    interval_cases c <;> simp [V3.get]
  · intro w hw he
    rw [List.mem_flatMap] at hw
    obtain ⟨⟨i', j', b'⟩, ht, hw⟩ := hw
    rw [mem_loop3] at ht
    simp only at ht
    have hpos : ∃ c' < 3, w.1 = 3 * ((i' * ld + j') * num + b') + c' := by
      simp only [List.mem_cons, List.not_mem_nil, or_false] at hw
      rcases hw with rfl | rfl | rfl
      · exact ⟨0, by omega, rfl⟩
      · exact ⟨1, by omega, rfl⟩
      · exact ⟨2, by omega, rfl⟩
    obtain ⟨c', hc', hw1⟩ := hpos
    have hcc : c' = c ∧ (i' * ld + j') * num + b' = (i * ld + j) * num + b := by omega
    obtain ⟨hij, rfl⟩ := rowMajor_inj ht.2.2 hb hcc.2
    obtain ⟨rfl, rfl⟩ := rowMajor_inj ht.2.1 hj hij
    obtain ⟨rfl, -⟩ := hcc
    simp only [band]
    rw [← e1, ← e2]
    simp only [List.mem_cons, List.not_mem_nil, or_false] at hw
    rcases hw with rfl | rfl | rfl
    · simp only at hw1; obtain rfl : c' = 0 := by omega
      rfl
    · simp only at hw1; obtain rfl : c' = 1 := by omega
      rfl
    · simp only at hw1; obtain rfl : c' = 2 := by omega
      rfl

theorem storeBands_apply (conv : KData → V3 ℂ → ℝ → ℂ × ℂ) {od ld : ℕ} (kpg : ℕ → KData) {p : ℕ} (F Hout : ℕ → ℂ)
    {start num : ℕ} (hp : start + num ≤ p) (scale : ℝ) :
    (∀ G < od * ld, ∀ b < num, band p (storeBands conv od ld kpg p F Hout start num scale) (start + b) G =
      conv (kpg G) ⟨F (3 * (G * num + b) + 0), F (3 * (G * num + b) + 1), F (3 * (G * num + b) + 2)⟩ scale) ∧
    (∀ a, (∀ G < od * ld, ∀ b < num, ∀ c < 2, a ≠ (G * 2 + c) * p + (start + b)) →
      storeBands conv od ld kpg p F Hout start num scale a = Hout a) := by
  have eq : ∀ G b : ℕ, G * 2 * p + b + start = (G * 2 + 0) * p + (start + b) ∧
      G * 2 * p + b + start + p = (G * 2 + 1) * p + (start + b) := fun G b => ⟨by ring, by ring⟩
  have hmem : storeBands conv od ld kpg p F Hout start num scale = writes ((loop3 od ld num).flatMap fun t =>
      [(((t.1 * ld + t.2.1) * 2 + 0) * p + (start + t.2.2), (conv (kpg (t.1 * ld + t.2.1)) ⟨F (3 * ((t.1 * ld + t.2.1) * num + t.2.2) + 0),
          F (3 * ((t.1 * ld + t.2.1) * num + t.2.2) + 1), F (3 * ((t.1 * ld + t.2.1) * num + t.2.2) + 2)⟩ scale).1),
       (((t.1 * ld + t.2.1) * 2 + 1) * p + (start + t.2.2), (conv (kpg (t.1 * ld + t.2.1)) ⟨F (3 * ((t.1 * ld + t.2.1) * num + t.2.2) + 0),
          F (3 * ((t.1 * ld + t.2.1) * num + t.2.2) + 1), F (3 * ((t.1 * ld + t.2.1) * num + t.2.2) + 2)⟩ scale).2)]) Hout := by
    unfold storeBands
    simp only [write2]
    rw [foldl_writes]
    have e3 : ∀ G b : ℕ, (G * 2 + 0) * p + (start + b) + p = (G * 2 + 1) * p + (start + b) := fun G b => by ring
    simp only [eq, e3]
  constructor
  · intro G hG b hb
    obtain ⟨i, hi, j, hj, rfl⟩ := exists_od_ld hG
    have key : ∀ (c : ℕ) (v : ℂ), c < 2 → v = (if c = 0 then (conv (kpg (i * ld + j)) ⟨F (3 * ((i * ld + j) * num + b) + 0),
          F (3 * ((i * ld + j) * num + b) + 1), F (3 * ((i * ld + j) * num + b) + 2)⟩ scale).1 else
          (conv (kpg (i * ld + j)) ⟨F (3 * ((i * ld + j) * num + b) + 0),
          F (3 * ((i * ld + j) * num + b) + 1), F (3 * ((i * ld + j) * num + b) + 2)⟩ scale).2) →
        storeBands conv od ld kpg p F Hout start num scale (((i * ld + j) * 2 + c) * p + (start + b)) = v := by
      intro c v hc hv
      rw [hmem]
      apply writes_of_mem
      · rw [List.mem_flatMap]
        refine ⟨(i, j, b), mem_loop3.2 ⟨hi, hj, hb⟩, ?_⟩
        subst hv
        interval_cases c <;> simp
      · intro w hw he
        rw [List.mem_flatMap] at hw
        obtain ⟨⟨i', j', b'⟩, ht, hw⟩ := hw
        rw [mem_loop3] at ht
        simp only at ht
        have hpos : ∃ c' < 2, w.1 = ((i' * ld + j') * 2 + c') * p + (start + b') ∧ w.2 = (if c' = 0 then
            (conv (kpg (i' * ld + j')) ⟨F (3 * ((i' * ld + j') * num + b') + 0),
          F (3 * ((i' * ld + j') * num + b') + 1), F (3 * ((i' * ld + j') * num + b') + 2)⟩ scale).1 else
          (conv (kpg (i' * ld + j')) ⟨F (3 * ((i' * ld + j') * num + b') + 0),
          F (3 * ((i' * ld + j') * num + b') + 1), F (3 * ((i' * ld + j') * num + b') + 2)⟩ scale).2) := by
          simp only [List.mem_cons, List.not_mem_nil, or_false] at hw
          rcases hw with rfl | rfl
          · exact ⟨0, by omega, rfl, rfl⟩
          · exact ⟨1, by omega, rfl, rfl⟩
        obtain ⟨c', hc', hw1, hw2⟩ := hpos
        rw [hw1] at he
        obtain ⟨h1, h2⟩ := rowMajor_inj (by omega) (by omega) he
        obtain ⟨h3, rfl⟩ := rowMajor_inj hc' hc h1
        obtain ⟨rfl, rfl⟩ := rowMajor_inj ht.2.1 hj h3
        obtain rfl : b' = b := by omega
        rw [hw2, hv]
    apply Prod.ext
    · exact key 0 _ (by omega) rfl
    · exact key 1 _ (by omega) rfl
  · intro a ha
    rw [hmem]
    apply writes_of_not_mem
    intro w hw
    rw [List.mem_flatMap] at hw
    obtain ⟨⟨i', j', b'⟩, ht, hw⟩ := hw
    rw [mem_loop3] at ht
    simp only at ht
    have hlt : i' * ld + j' < od * ld := rowMajor_lt ht.1 ht.2.1
    simp only [List.mem_cons, List.not_mem_nil, or_false] at hw
    rcases hw with rfl | rfl
    · exact (ha _ hlt b' ht.2.2 0 (by omega)).symm
    · exact (ha _ hlt b' ht.2.2 1 (by omega)).symm

theorem eFromD_apply {n num : ℕ} (M : ℕ → HMat) (F : ℕ → ℂ) {r b : ℕ} (hr : r < n) (hb : b < num) :
    ∀ c < 3, eFromD n num M F (3 * (r * num + b) + c) =
      ((M r).mulVec ⟨F (3 * (r * num + b) + 0), F (3 * (r * num + b) + 1), F (3 * (r * num + b) + 2)⟩).get c := by
  intro c hc
  have hw3 : ∀ base v (m : ℕ → ℂ) a, write3 base v m a = if a = base + 2 then v.z else if a = base + 1 then v.y else
      if a = base then v.x else m a := by
    intro base v m a
    simp only [write3, writes_cons, writes_nil, Function.update_apply, Nat.add_zero]
  have H := (foldl_local_spec (fun (t : ℕ × ℕ) a => ∃ c < 3, a = 3 * (t.1 * num + t.2) + c)
    (fun mem t => write3 (3 * (t.1 * num + t.2)) ((M t.1).mulVec ⟨mem (3 * (t.1 * num + t.2) + 0), mem (3 * (t.1 * num + t.2) + 1),
      mem (3 * (t.1 * num + t.2) + 2)⟩) mem) (loop2 n num) F ?_ ?_ ?_).1 (r, b) (mem_loop2.2 ⟨hr, hb⟩)
    (3 * (r * num + b) + c) ⟨c, hc, rfl⟩
  · refine H.trans ?_
    rw [hw3]
    interval_cases c <;> simp [V3.get]
  · intro t _ m a ha
    rw [hw3]
    rw [if_neg, if_neg, if_neg]
    · intro e; exact ha ⟨0, by omega, by omega⟩
    · intro e; exact ha ⟨1, by omega, by omega⟩
    · intro e; exact ha ⟨2, by omega, by omega⟩
  · intro t _ m m' hm a ha
    rw [hm _ ⟨0, by omega, rfl⟩, hm _ ⟨1, by omega, rfl⟩, hm _ ⟨2, by omega, rfl⟩]
    obtain ⟨c, hc, rfl⟩ := ha
    rw [hw3, hw3]
    interval_cases c <;> simp
  · refine (nodup_loop2 n num).imp_of_mem (fun {t t'} ht ht' hne a => ?_)
    rintro ⟨c1, h1, rfl⟩ ⟨c2, h2, e⟩
    have e2 : t.1 * num + t.2 = t'.1 * num + t'.2 := by omega
    obtain ⟨a1, a2⟩ := rowMajor_inj (mem_loop2.1 ht).2 (mem_loop2.1 ht').2 e2
    exact hne (Prod.ext a1 a2)

theorem computeFft_apply (W : ℕ → ℕ → ℂ) {N num : ℕ} (inp out : ℕ → ℂ) {r b c : ℕ} (hr : r < N) (hb : b < num) (hc : c < 3) :
    computeFft W N (num * 3) inp out (3 * (r * num + b) + c) = ∑ j ∈ Finset.range N, W r j * inp (3 * (j * num + b) + c) := by
  have e : 3 * (r * num + b) + c = r * (num * 3) + (b * 3 + c) := by ring
  have hlt : b * 3 + c < num * 3 := by omega
  have hd : (r * (num * 3) + (b * 3 + c)) / (num * 3) = r := by
    rw [Nat.add_comm, Nat.add_mul_div_right _ _ (by omega), Nat.div_eq_of_lt hlt, Nat.zero_add]
  have hm : (r * (num * 3) + (b * 3 + c)) % (num * 3) = b * 3 + c := by
    rw [Nat.add_comm, Nat.add_mul_mod_self_right, Nat.mod_eq_of_lt hlt]
  unfold computeFft
  rw [e, if_pos (rowMajor_lt hr hlt), hd, hm]
  refine Finset.sum_congr rfl (fun j _ => ?_)
  congr 2; ring

/-- One chunk of bands: the chain fill → FFT → tensor → inverse FFT → store. -/
theorem chain_apply (ex : KData → ℂ → ℂ → V3 ℂ) (co : KData → V3 ℂ → ℝ → ℂ × ℂ) (d : OpData) (M : ℕ → HMat) (s : ℝ) {p : ℕ}
    (Hin buf Hout : ℕ → ℂ) {start num : ℕ} (hp : start + num ≤ p) :
    let f := computeFft d.Wf d.N (num * 3) (fillFft ex d.od d.ld d.kpg p Hin buf start num) buf
    let e := eFromD d.N num M f
    let R := storeBands co d.od d.ld d.kpg p (computeFft d.Wb d.N (num * 3) e e) Hout start num s
    (∀ G < d.N, ∀ b < num, band p R (start + b) G = colOp ex co d M s (band p Hin (start + b)) G) ∧
    (∀ a, (∀ G < d.N, ∀ b < num, ∀ c < 2, a ≠ (G * 2 + c) * p + (start + b)) → R a = Hout a) := by
  intro f e R
  obtain ⟨h1, h2⟩ := storeBands_apply co (od := d.od) (ld := d.ld) d.kpg (computeFft d.Wb d.N (num * 3) e e) Hout hp s
  refine ⟨fun G hG b hb => ?_, h2⟩
  refine (h1 G hG b hb).trans ?_
  have hf : ∀ r < d.N, ∀ c < 3, f (3 * (r * num + b) + c) =
      (transform d.Wf d.N (fun G => ex (d.kpg G) (band p Hin (start + b) G).1 (band p Hin (start + b) G).2) r).get c := by
    intro r hr c hc
    refine (computeFft_apply d.Wf _ _ hr hb hc).trans ?_
    have : ∀ j ∈ Finset.range d.N, d.Wf r j * fillFft ex d.od d.ld d.kpg p Hin buf start num (3 * (j * num + b) + c) =
        d.Wf r j * (ex (d.kpg j) (band p Hin (start + b) j).1 (band p Hin (start + b) j).2).get c := by
      intro j hj
      rw [fillFft_apply ex d.kpg p Hin buf start (Finset.mem_range.1 hj) hb hc]
    rw [Finset.sum_congr rfl this]
    interval_cases c <;> rfl
  have he : ∀ r < d.N, ∀ c < 3, e (3 * (r * num + b) + c) = ((M r).mulVec
      (transform d.Wf d.N (fun G => ex (d.kpg G) (band p Hin (start + b) G).1 (band p Hin (start + b) G).2) r)).get c := by
    intro r hr c hc
    refine (eFromD_apply M f hr hb c hc).trans ?_
    rw [hf r hr 0 (by omega), hf r hr 1 (by omega), hf r hr 2 (by omega)]
    rfl
  have hg : ∀ c < 3, computeFft d.Wb d.N (num * 3) e e (3 * (G * num + b) + c) = (transform d.Wb d.N (fun r => (M r).mulVec
      (transform d.Wf d.N (fun G => ex (d.kpg G) (band p Hin (start + b) G).1 (band p Hin (start + b) G).2) r)) G).get c := by
    intro c hc
    refine (computeFft_apply d.Wb _ _ hG hb hc).trans ?_
    rw [Finset.sum_congr rfl (fun j hj => by rw [he j (Finset.mem_range.1 hj) c hc])]
    interval_cases c <;> rfl
  rw [hg 0 (by omega), hg 1 (by omega), hg 2 (by omega)]
  rfl

theorem colOp_congr (ex : KData → ℂ → ℂ → V3 ℂ) (co : KData → V3 ℂ → ℝ → ℂ × ℂ) (d : OpData) (M : ℕ → HMat) (s : ℝ)
    {x y : ℕ → ℂ × ℂ} (h : ∀ G < d.N, x G = y G) (G : ℕ) : colOp ex co d M s x G = colOp ex co d M s y G := by
  have : transform d.Wf d.N (fun G => ex (d.kpg G) (x G).1 (x G).2) = transform d.Wf d.N (fun G => ex (d.kpg G) (y G).1 (y G).2) := by
    funext r
    have : ∀ (f : V3 ℂ → ℂ), ∑ j ∈ Finset.range d.N, d.Wf r j * f (ex (d.kpg j) (x j).1 (x j).2) =
        ∑ j ∈ Finset.range d.N, d.Wf r j * f (ex (d.kpg j) (y j).1 (y j).2) :=
      fun f => Finset.sum_congr rfl (fun j hj => by rw [h j (Finset.mem_range.1 hj)])
    unfold transform
    ext
    · exact this V3.x
    · exact this V3.y
    · exact this V3.z
  unfold colOp
  rw [this]

theorem bandChunks_bound {nfb p : ℕ} : ∀ {cur : ℕ} {ch}, ch ∈ bandChunks nfb p cur → ch.1 + ch.2 ≤ p ∧ 0 < ch.2 := by
  intro cur
  induction cur using bandChunks.induct (nfb := nfb) (p := p) with
  | case1 cur h ih =>
    intro ch hm
    rw [bandChunks, if_pos h] at hm
    rcases List.mem_cons.1 hm with rfl | hm
    · simp only; omega
    · exact ih hm
  | case2 cur h =>
    intro ch hm
    rw [bandChunks, if_neg h] at hm
    simp at hm

theorem bandChunks_cover {nfb p : ℕ} (hn : 0 < nfb) : ∀ {cur b : ℕ}, cur ≤ b → b < p →
    ∃ ch ∈ bandChunks nfb p cur, ch.1 ≤ b ∧ b < ch.1 + ch.2 := by
  intro cur
  induction cur using bandChunks.induct (nfb := nfb) (p := p) with
  | case1 cur h ih =>
    intro b h1 h2
    rw [bandChunks, if_pos h]
    by_cases hb : b < cur + nfb
    · exact ⟨(cur, min nfb (p - cur)), by simp, h1, by simp only; omega⟩
    · obtain ⟨ch, hm, hc⟩ := ih (b := b) (by omega) h2
      exact ⟨ch, by simp [hm], hc⟩
  | case2 cur h => intro b h1 h2; omega

/-- The whole band loop, given what each chunk does. -/
theorem chunks_apply {N p nfb : ℕ} (hn : 0 < nfb) (step : (ℕ → ℂ) → ℕ × ℕ → (ℕ → ℂ)) (A : ℕ → ℕ → ℂ × ℂ)
    (hstep : ∀ (X : ℕ → ℂ) (ch : ℕ × ℕ), ch.1 + ch.2 ≤ p →
      (∀ G < N, ∀ b < ch.2, band p (step X ch) (ch.1 + b) G = A (ch.1 + b) G) ∧
      (∀ a, (∀ G < N, ∀ b < ch.2, ∀ c < 2, a ≠ (G * 2 + c) * p + (ch.1 + b)) → step X ch a = X a)) (Xout : ℕ → ℂ) :
    let R := (bandChunks nfb p 0).foldl step Xout
    (∀ b < p, ∀ G < N, band p R b G = A b G) ∧ (∀ a, N * 2 * p ≤ a → R a = Xout a) := by
  intro R
  obtain ⟨h1, h2⟩ := foldl_const_spec
    (fun (ch : ℕ × ℕ) a => ∃ G < N, ∃ b < ch.2, ∃ c < 2, a = (G * 2 + c) * p + (ch.1 + b))
    (fun a => if a / p % 2 = 0 then (A (a % p) (a / p / 2)).1 else (A (a % p) (a / p / 2)).2) step (bandChunks nfb p 0) Xout
    (fun ch hm m a ha => (hstep m ch (bandChunks_bound hm).1).2 a (by push Not at ha; exact ha))
    (fun ch hm m a ha => by
      obtain ⟨G, hG, b, hb, c, hc, rfl⟩ := ha
      have hbd := (bandChunks_bound hm).1
      have hp : 0 < p := by omega
      have e1 : ((G * 2 + c) * p + (ch.1 + b)) / p = G * 2 + c := by
        rw [Nat.add_comm, Nat.add_mul_div_right _ _ hp, Nat.div_eq_of_lt (by omega), Nat.zero_add]
      have e2 : ((G * 2 + c) * p + (ch.1 + b)) % p = ch.1 + b := by
        rw [Nat.add_comm, Nat.add_mul_mod_self_right, Nat.mod_eq_of_lt (by omega)]
      have e3 : (G * 2 + c) / 2 = G := by omega
      have := (hstep m ch hbd).1 G hG b hb
      rw [e1, e2, e3, ← this]
      interval_cases c
      · simp [band]
      · have : ¬ (G * 2 + 1) % 2 = 0 := by omega
        rw [if_neg this]; rfl)
  refine ⟨fun b hb G hG => ?_, fun a ha => ?_⟩
  · obtain ⟨ch, hm, c1, c2⟩ := bandChunks_cover hn (Nat.zero_le b) hb
    have hp : 0 < p := by omega
    have val : ∀ c < 2, R ((G * 2 + c) * p + b) = if c = 0 then (A b G).1 else (A b G).2 := by
      intro c hc
      refine (h1 _ ⟨ch, hm, G, hG, b - ch.1, by omega, c, hc, by congr 1; omega⟩).trans ?_
      have e1 : ((G * 2 + c) * p + b) / p = G * 2 + c := by
        rw [Nat.add_comm, Nat.add_mul_div_right _ _ hp, Nat.div_eq_of_lt (by omega), Nat.zero_add]
      have e2 : ((G * 2 + c) * p + b) % p = b := by
        rw [Nat.add_comm, Nat.add_mul_mod_self_right, Nat.mod_eq_of_lt (by omega)]
      have e3 : (G * 2 + c) / 2 = G := by omega
      have e4 : (G * 2 + c) % 2 = c := by omega
      simp only [e1, e2, e3, e4]
    exact Prod.ext (val 0 (by omega)) (val 1 (by omega))
  · apply h2
    rintro ch hm ⟨G, hG, b, hb, c, hc, rfl⟩
    have := (bandChunks_bound hm).1
    have : (G * 2 + c) * p + (ch.1 + b) < N * 2 * p := rowMajor_lt (rowMajor_lt hG hc) (by omega)
    omega

end Mpb.Maxwell

import Verif.Parity.Spec
import Mathlib.Data.List.Pairwise

/-! # Lemmas for the parity constraints -/

namespace Mpb.Parity
open Spec Maxwell Maxwell.Spec

theorem nodup_loop3 (n m l : ℕ) : (loop3 n m l).Nodup := by
  have h := loop3_map_addr n m l
  have : ((loop3 n m l).map (fun t : ℕ × ℕ × ℕ => (t.1 * m + t.2.1) * l + t.2.2)).Nodup := by
    rw [h]; exact List.nodup_range
  exact List.Nodup.of_map _ this

theorem half_add (su : ℝ) (a b : ℂ) : (⟨0.5 * (a.re + su * b.re), 0.5 * (a.im + su * b.im)⟩ : ℂ) = 1 / 2 * (a + su * b) := by
  apply Complex.ext <;> simp <;> norm_num

theorem half_sub (su : ℝ) (a b : ℂ) : (⟨0.5 * (a.re - su * b.re), 0.5 * (a.im - su * b.im)⟩ : ℂ) = 1 / 2 * (a - su * b) := by
  apply Complex.ext <;> simp <;> norm_num

/-- Addresses touched by `pairStep`. -/
def touch (p c c2 b : ℕ) (a : ℕ) : Prop :=
  a = (c * 2) * p + b ∨ a = (c * 2 + 1) * p + b ∨ a = (c2 * 2) * p + b ∨ a = (c2 * 2 + 1) * p + b

theorem addr_inj {p q q' b b' : ℕ} (hb : b < p) (hb' : b' < p) (h : q * p + b = q' * p + b') : q = q' ∧ b = b' :=
  rowMajor_inj hb hb' h

theorem pairStep_other (su : ℝ) (p : ℕ) (mem : ℕ → ℂ) (c c2 b a : ℕ) (h : ¬ touch p c c2 b a) :
    pairStep su p mem c c2 b a = mem a := by
  unfold touch at h
  push Not at h
  unfold pairStep
  apply writes_of_not_mem
  intro w hw
  simp only [List.mem_cons, List.not_mem_nil, or_false] at hw
  rcases hw with rfl | rfl | rfl | rfl
  · exact h.1.symm
  · exact h.2.1.symm
  · exact h.2.2.1.symm
  · exact h.2.2.2.symm

theorem pairStep_band (su : ℝ) {p : ℕ} (mem : ℕ → ℂ) (c c2 : ℕ) {b : ℕ} (hb : b < p) :
    band p (pairStep su p mem c c2 b) b c = (1 / 2 * ((band p mem b c).1 + su * (band p mem b c2).1),
      1 / 2 * ((band p mem b c).2 - su * (band p mem b c2).2)) ∧
    band p (pairStep su p mem c c2 b) b c2 = (1 / 2 * ((band p mem b c2).1 + su * (band p mem b c).1),
      1 / 2 * ((band p mem b c2).2 - su * (band p mem b c).2)) := by
  have i0 : ∀ q q' : ℕ, q * p + b = q' * p + b → q = q' := fun q q' h => (addr_inj hb hb h).1
  simp only [band, pairStep, Nat.add_zero]
  by_cases hcc : c = c2
  · subst hcc
    simp only [half_add, half_sub]
    refine ⟨Prod.ext ?_ ?_, Prod.ext ?_ ?_⟩ <;> dsimp only
    all_goals
      apply writes_of_mem
      · simp
      · intro w hw e
        simp only [List.mem_cons, List.not_mem_nil, or_false] at hw
        rcases hw with rfl | rfl | rfl | rfl <;> simp only at e ⊢ <;> have := i0 _ _ e <;> omega
  · simp only [half_add, half_sub]
    refine ⟨Prod.ext ?_ ?_, Prod.ext ?_ ?_⟩ <;> dsimp only
    all_goals
      apply writes_of_mem
      · simp
      · intro w hw e
        simp only [List.mem_cons, List.not_mem_nil, or_false] at hw
        rcases hw with rfl | rfl | rfl | rfl <;> simp only at e ⊢ <;> have := i0 _ _ e <;> omega

theorem pairStep_congr (su : ℝ) {p : ℕ} (m m' : ℕ → ℂ) (c c2 b : ℕ)
    (h : ∀ a, touch p c c2 b a → m a = m' a) (a : ℕ) (ha : touch p c c2 b a) :
    pairStep su p m c c2 b a = pairStep su p m' c c2 b a := by
  have e1 := h _ (Or.inl rfl)
  have e2 := h _ (Or.inr (Or.inl rfl))
  have e3 := h _ (Or.inr (Or.inr (Or.inl rfl)))
  have e4 := h _ (Or.inr (Or.inr (Or.inr rfl)))
  have ea := h a ha
  unfold pairStep
  simp only [e1, e2, e3, e4]
  unfold writes
  simp only [List.foldl_cons, List.foldl_nil, Function.update_apply, ea]

/-- The projection loop over any list of cells, each pair of mirror cells visited once per band. -/
theorem pairs_spec {ι : Type*} (su : ℝ) {p : ℕ} (l : List ι) (cell mirr bnd : ι → ℕ) (X : ℕ → ℂ) (hb : ∀ t ∈ l, bnd t < p)
    (hnd : l.Nodup)
    (hd : ∀ t ∈ l, ∀ t' ∈ l, t ≠ t' → bnd t = bnd t' →
      cell t ≠ cell t' ∧ cell t ≠ mirr t' ∧ mirr t ≠ cell t' ∧ mirr t ≠ mirr t') :
    let R := l.foldl (fun mem t => pairStep su p mem (cell t) (mirr t) (bnd t)) X
    (∀ t ∈ l,
      band p R (bnd t) (cell t) = (1 / 2 * ((band p X (bnd t) (cell t)).1 + su * (band p X (bnd t) (mirr t)).1),
        1 / 2 * ((band p X (bnd t) (cell t)).2 - su * (band p X (bnd t) (mirr t)).2)) ∧
      band p R (bnd t) (mirr t) = (1 / 2 * ((band p X (bnd t) (mirr t)).1 + su * (band p X (bnd t) (cell t)).1),
        1 / 2 * ((band p X (bnd t) (mirr t)).2 - su * (band p X (bnd t) (cell t)).2))) ∧
    (∀ a, (∀ t ∈ l, ¬ touch p (cell t) (mirr t) (bnd t) a) → R a = X a) := by
  intro R
  obtain ⟨h1, h2⟩ := foldl_local_spec (fun t => touch p (cell t) (mirr t) (bnd t))
    (fun mem t => pairStep su p mem (cell t) (mirr t) (bnd t)) l X
    (fun t _ m a h => pairStep_other su p m _ _ _ a h)
    (fun t _ m m' h a ha => pairStep_congr su m m' _ _ _ h a ha)
    (by
      refine List.Nodup.pairwise_of_forall_ne hnd (fun t ht t' ht' hne a ha ha' => ?_)
      have bt := hb t ht
      have bt' := hb t' ht'
      have key : ∀ q q' : ℕ, a = q * p + bnd t → a = q' * p + bnd t' → q = q' ∧ bnd t = bnd t' :=
        fun q q' e e' => addr_inj bt bt' (e.symm.trans e')
      unfold touch at ha ha'
      rcases ha with ha | ha | ha | ha <;> rcases ha' with ha' | ha' | ha' | ha' <;>
        (obtain ⟨k1, k2⟩ := key _ _ ha ha'
         obtain ⟨d1, d2, d3, d4⟩ := hd t ht t' ht' hne k2
         omega))
  refine ⟨fun t ht => ?_, h2⟩
  obtain ⟨s1, s2⟩ := pairStep_band su X (cell t) (mirr t) (hb t ht)
  rw [← s1, ← s2]
  constructor
  · exact Prod.ext (h1 t ht _ (Or.inl (by simp))) (h1 t ht _ (Or.inr (Or.inl (by simp))))
  · exact Prod.ext (h1 t ht _ (Or.inr (Or.inr (Or.inl (by simp))))) (h1 t ht _ (Or.inr (Or.inr (Or.inr (by simp)))))

/-- `mir` on the visited half of the indices. -/
theorem mir_eq {n j : ℕ} (hn : 0 < n) (hj : j < n / 2 + 1) (h1 : n ≠ 1 ∨ j = 0) : mir n j = (n - j) % n := by
  unfold mir
  split
  · rw [Nat.mod_eq_of_lt (by omega)]
  · have : j = 0 := by omega
    subst this; simp

theorem mir_lt {n j : ℕ} (hn : 0 < n) : mir n j < n := by
  unfold mir; split <;> omega

theorem mir_visit {n j j' : ℕ} (hj : j < n / 2 + 1) (hj' : j' < n / 2 + 1) (hne : j ≠ j') (hn : 0 < n) :
    j ≠ mir n j' ∧ mir n j ≠ j' ∧ mir n j ≠ mir n j' := by
  unfold mir
  split <;> split <;> omega

theorem exists_visit {n j : ℕ} (hj : j < n) :
    ∃ t < n / 2 + 1, (j = t ∧ mir n t = (n - j) % n) ∨ (j = mir n t ∧ t = (n - j) % n) := by
  by_cases h : 2 * j ≤ n
  · refine ⟨j, by omega, Or.inl ⟨rfl, ?_⟩⟩
    unfold mir
    split
    · rw [Nat.mod_eq_of_lt (by omega)]
    · have : j = 0 := by omega
      subst this; simp
  · refine ⟨n - j, by omega, Or.inr ⟨?_, ?_⟩⟩
    · unfold mir; split <;> omega
    · rw [Nat.mod_eq_of_lt (by omega)]

theorem visit_lt {n j : ℕ} (hn : 0 < n) (hj : j < n / 2 + 1) : j < n := by omega

theorem flipZ_eq {nz i j : ℕ} (hj : j < nz) : flipZ nz (i * nz + j) = i * nz + (nz - j) % nz := by
  have hn : 0 < nz := by omega
  have e1 : (i * nz + j) / nz = i := by
    rw [Nat.add_comm, Nat.add_mul_div_right _ _ hn, Nat.div_eq_of_lt hj, Nat.zero_add]
  have e2 : (i * nz + j) % nz = j := by rw [Nat.add_comm, Nat.add_mul_mod_self_right, Nat.mod_eq_of_lt hj]
  unfold flipZ
  rw [e1, e2]

theorem flipY_eq {ny nz i j k : ℕ} (hj : j < ny) (hk : k < nz) :
    flipY ny nz ((i * ny + j) * nz + k) = (i * ny + (ny - j) % ny) * nz + k := by
  have hn : 0 < nz := by omega
  have e1 : ((i * ny + j) * nz + k) / nz = i * ny + j := by
    rw [Nat.add_comm, Nat.add_mul_div_right _ _ hn, Nat.div_eq_of_lt hk, Nat.zero_add]
  have e2 : ((i * ny + j) * nz + k) % nz = k := by rw [Nat.add_comm, Nat.add_mul_mod_self_right, Nat.mod_eq_of_lt hk]
  have := flipZ_eq (i := i) hj
  unfold flipZ at this
  unfold flipY
  rw [e1, e2, this]

theorem part_mirrorZ_apply (nz : ℕ) (s : ℂ) (x : ℕ → ℂ × ℂ) (G : ℕ) :
    part (mirrorZ nz) s x G = (1 / 2 * ((x G).1 + s * (x (flipZ nz G)).1), 1 / 2 * ((x G).2 - s * (x (flipZ nz G)).2)) := by
  refine Prod.ext ?_ ?_
  · rfl
  · simp only [part, scale, add, mirrorZ, Prod.snd_add]; ring

theorem part_mirrorY_apply (ny nz : ℕ) (s : ℂ) (x : ℕ → ℂ × ℂ) (G : ℕ) :
    part (mirrorY ny nz) s x G =
      (1 / 2 * ((x G).1 - s * (x (flipY ny nz G)).1), 1 / 2 * ((x G).2 + s * (x (flipY ny nz G)).2)) := by
  refine Prod.ext ?_ ?_
  · simp only [part, scale, add, mirrorY, Prod.fst_add]; ring
  · rfl

theorem lastDim_3d {g : Grid} (h : g.nz > 1) : g.lastDim = g.nz ∧ g.otherDims = g.nx * g.ny := by
  have h1 : g.lastDim = g.nz := by unfold Grid.lastDim; rw [if_neg (by omega)]
  refine ⟨h1, ?_⟩
  unfold Grid.otherDims
  rw [h1, Nat.mul_div_cancel _ (by omega)]

theorem dims_mul (g : Grid) : g.otherDims * g.lastDim = g.nx * g.ny * g.nz := by
  unfold Grid.otherDims
  apply Nat.div_mul_cancel
  unfold Grid.lastDim
  split
  · split
    · exact ⟨g.ny * g.nz, by ring⟩
    · exact ⟨g.nx * g.nz, by ring⟩
  · exact ⟨g.nx * g.ny, by ring⟩

theorem row_lt {c N q p b : ℕ} (hc : c < N) (hq : q < 2) (hb : b < p) : (c * 2 + q) * p + b < N * 2 * p :=
  rowMajor_lt (by omega) hb

theorem touch_lt {N p c c2 b a : ℕ} (hc : c < N) (hc2 : c2 < N) (hb : b < p) (h : touch p c c2 b a) : a < N * 2 * p := by
  have := row_lt (q := 0) hc (by omega) hb
  have := row_lt (q := 1) hc (by omega) hb
  have := row_lt (q := 0) hc2 (by omega) hb
  have := row_lt (q := 1) hc2 (by omega) hb
  simp only [Nat.add_zero] at *
  unfold touch at h
  rcases h with h | h | h | h <;> omega

/-- The 3d loop of the z constraint. -/
theorem zloop_spec (su : ℝ) (nxy nz p : ℕ) (hz : 0 < nz) (X : ℕ → ℂ) :
    let R := (loop3 nxy (nz / 2 + 1) p).foldl
      (fun mem t => pairStep su p mem (t.1 * nz + t.2.1) (t.1 * nz + mir nz t.2.1) t.2.2) X
    (∀ b < p, ∀ G < nxy * nz, band p R b G = part (mirrorZ nz) su (band p X b) G) ∧ (∀ a, nxy * nz * 2 * p ≤ a → R a = X a) := by
  intro R
  obtain ⟨h1, h2⟩ := pairs_spec su (p := p) (loop3 nxy (nz / 2 + 1) p) (fun t => t.1 * nz + t.2.1) (fun t => t.1 * nz + mir nz t.2.1)
    (fun t => t.2.2) X (fun t ht => (mem_loop3.1 ht).2.2) (nodup_loop3 _ _ _) (by
      rintro ⟨i, j, b⟩ ht ⟨i', j', b'⟩ ht' hne hbb
      obtain ⟨_, hj, _⟩ := mem_loop3.1 ht
      obtain ⟨_, hj', _⟩ := mem_loop3.1 ht'
      simp only at hj hj' hbb ⊢
      have l1 := visit_lt hz hj
      have l2 := visit_lt hz hj'
      have l3 : mir nz j < nz := mir_lt hz
      have l4 : mir nz j' < nz := mir_lt hz
      have hij : i = i' → j ≠ j' := fun e e' => hne (by rw [e, e', hbb])
      refine ⟨fun e => ?_, fun e => ?_, fun e => ?_, fun e => ?_⟩
      · obtain ⟨q1, q2⟩ := rowMajor_inj l1 l2 e
        exact hij q1 q2
      · obtain ⟨q1, q2⟩ := rowMajor_inj l1 l4 e
        exact (mir_visit hj hj' (hij q1) hz).1 q2
      · obtain ⟨q1, q2⟩ := rowMajor_inj l3 l2 e
        exact (mir_visit hj hj' (hij q1) hz).2.1 q2
      · obtain ⟨q1, q2⟩ := rowMajor_inj l3 l4 e
        exact (mir_visit hj hj' (hij q1) hz).2.2 q2)
  refine ⟨fun b hb G hG => ?_, fun a ha => h2 a (fun t ht hc => ?_)⟩
  · obtain ⟨i, hi, j, hj, rfl⟩ := exists_od_ld hG
    rw [part_mirrorZ_apply, flipZ_eq hj]
    obtain ⟨t, ht, hc | hc⟩ := exists_visit hj
    · have := (h1 (i, t, b) (mem_loop3.2 ⟨hi, ht, hb⟩)).1
      simp only at this
      obtain ⟨e1, e2⟩ := hc
      subst e1
      rw [e2] at this
      exact this
    · have := (h1 (i, t, b) (mem_loop3.2 ⟨hi, ht, hb⟩)).2
      simp only at this
      rw [← hc.1, hc.2] at this
      exact this
  · obtain ⟨q1, q2, q3⟩ := mem_loop3.1 ht
    have := touch_lt (rowMajor_lt q1 (visit_lt hz q2)) (rowMajor_lt q1 (mir_lt hz)) q3 hc
    omega

/-- The loop of the y constraint. -/
theorem yloop_spec (su : ℝ) (nx ny nz p : ℕ) (X : ℕ → ℂ) :
    let R := ((loop2 nx (ny / 2 + 1)).flatMap fun ij => (loop2 nz p).map fun kb => (ij, kb)).foldl
      (fun mem t => pairStep su p mem ((t.1.1 * ny + t.1.2) * nz + t.2.1) ((t.1.1 * ny + mir ny t.1.2) * nz + t.2.1) t.2.2) X
    0 < ny →
    (∀ b < p, ∀ G < nx * ny * nz, band p R b G = part (mirrorY ny nz) (-su) (band p X b) G) ∧
    (∀ a, nx * ny * nz * 2 * p ≤ a → R a = X a) := by
  intro R hy
  have hmem : ∀ {t : (ℕ × ℕ) × (ℕ × ℕ)}, t ∈ ((loop2 nx (ny / 2 + 1)).flatMap fun ij => (loop2 nz p).map fun kb => (ij, kb)) ↔
      (t.1.1 < nx ∧ t.1.2 < ny / 2 + 1) ∧ (t.2.1 < nz ∧ t.2.2 < p) := by
    rintro ⟨⟨i, j⟩, ⟨k, b⟩⟩
    rw [List.mem_flatMap]
    constructor
    · rintro ⟨ij, h1, h2⟩
      rw [List.mem_map] at h2
      obtain ⟨kb, h3, h4⟩ := h2
      rw [Prod.mk.injEq] at h4
      obtain ⟨rfl, rfl⟩ := h4
      exact ⟨mem_loop2.1 h1, mem_loop2.1 h3⟩
    · rintro ⟨h1, h2⟩
      exact ⟨(i, j), mem_loop2.2 h1, List.mem_map.2 ⟨(k, b), mem_loop2.2 h2, rfl⟩⟩
  have hnd : ((loop2 nx (ny / 2 + 1)).flatMap fun ij => (loop2 nz p).map fun kb => (ij, kb)).Nodup := by
    rw [List.nodup_flatMap]
    refine ⟨fun ij _ => (nodup_loop2 _ _).map (fun a b h => by simpa using h), ?_⟩
    refine (nodup_loop2 _ _).imp (fun {a b} hab => ?_)
    rw [Function.onFun, List.disjoint_left]
    rintro ⟨x, y⟩ h1 h2
    simp only [List.mem_map, Prod.mk.injEq] at h1 h2
    obtain ⟨_, _, rfl, _⟩ := h1
    obtain ⟨_, _, rfl, _⟩ := h2
    exact hab rfl
  obtain ⟨h1, h2⟩ := pairs_spec su (p := p) _ (fun t : (ℕ × ℕ) × (ℕ × ℕ) => (t.1.1 * ny + t.1.2) * nz + t.2.1)
    (fun t => (t.1.1 * ny + mir ny t.1.2) * nz + t.2.1) (fun t => t.2.2) X (fun t ht => (hmem.1 ht).2.2) hnd (by
      rintro ⟨⟨i, j⟩, ⟨k, b⟩⟩ ht ⟨⟨i', j'⟩, ⟨k', b'⟩⟩ ht' hne hbb
      obtain ⟨⟨_, hj⟩, hk, _⟩ := hmem.1 ht
      obtain ⟨⟨_, hj'⟩, hk', _⟩ := hmem.1 ht'
      simp only at hj hj' hk hk' hbb ⊢
      have l1 := visit_lt hy hj
      have l2 := visit_lt hy hj'
      have l3 : mir ny j < ny := mir_lt hy
      have l4 : mir ny j' < ny := mir_lt hy
      have hij : i = i' → k = k' → j ≠ j' := fun e e2 e' => hne (by rw [e, e', hbb, e2])
      refine ⟨fun e => ?_, fun e => ?_, fun e => ?_, fun e => ?_⟩ <;> obtain ⟨q0, qk⟩ := rowMajor_inj hk hk' e
      · obtain ⟨q1, q2⟩ := rowMajor_inj l1 l2 q0
        exact hij q1 qk q2
      · obtain ⟨q1, q2⟩ := rowMajor_inj l1 l4 q0
        exact (mir_visit hj hj' (hij q1 qk) hy).1 q2
      · obtain ⟨q1, q2⟩ := rowMajor_inj l3 l2 q0
        exact (mir_visit hj hj' (hij q1 qk) hy).2.1 q2
      · obtain ⟨q1, q2⟩ := rowMajor_inj l3 l4 q0
        exact (mir_visit hj hj' (hij q1 qk) hy).2.2 q2)
  refine ⟨fun b hb G hG => ?_, fun a ha => h2 a (fun t ht hc => ?_)⟩
  · obtain ⟨ij, hij, k, hk, rfl⟩ := exists_od_ld hG
    obtain ⟨i, hi, j, hj, rfl⟩ := exists_od_ld hij
    rw [part_mirrorY_apply, flipY_eq hj hk]
    have hs : ∀ a c : ℂ, a - -(su : ℂ) * c = a + su * c := fun a c => by ring
    have hs2 : ∀ a c : ℂ, a + -(su : ℂ) * c = a - su * c := fun a c => by ring
    rw [hs, hs2]
    obtain ⟨t, ht, hc | hc⟩ := exists_visit hj
    · have := (h1 ((i, t), (k, b)) (hmem.2 ⟨⟨hi, ht⟩, hk, hb⟩)).1
      simp only at this
      obtain ⟨e1, e2⟩ := hc
      subst e1
      rw [e2] at this
      exact this
    · have := (h1 ((i, t), (k, b)) (hmem.2 ⟨⟨hi, ht⟩, hk, hb⟩)).2
      simp only at this
      rw [← hc.1, hc.2] at this
      exact this
  · obtain ⟨⟨q1, q2⟩, q3, q4⟩ := hmem.1 ht
    have := touch_lt (rowMajor_lt (rowMajor_lt q1 (visit_lt hy q2)) q3) (rowMajor_lt (rowMajor_lt q1 (mir_lt hy)) q3) q4 hc
    omega

/-- Zeroing one polarisation. -/
theorem zero_comp (n p q : ℕ) (hq : q < 2) (X : ℕ → ℂ) :
    let R := writes ((loop2 n p).map fun t => ((t.1 * 2 + q) * p + t.2, (0 : ℂ))) X
    (∀ G < n, ∀ b < p, R ((G * 2 + q) * p + b) = 0) ∧
    (∀ G, ∀ q' < 2, q' ≠ q → ∀ b < p, R ((G * 2 + q') * p + b) = X ((G * 2 + q') * p + b)) ∧
    (∀ a, n * 2 * p ≤ a → R a = X a) := by
  intro R
  refine ⟨fun G hG b hb => ?_, fun G q' hq' hne b hb => ?_, fun a ha => ?_⟩
  · exact writes_map_apply (addr := fun t : ℕ × ℕ => (t.1 * 2 + q) * p + t.2) (val := fun _ => (0 : ℂ)) (i := (G, b))
      (mem_loop2.2 ⟨hG, hb⟩) (fun _ _ _ => rfl)
  · refine writes_map_other (addr := fun t : ℕ × ℕ => (t.1 * 2 + q) * p + t.2) (val := fun _ => (0 : ℂ)) ?_
    intro t ht e
    have := (rowMajor_inj (mem_loop2.1 ht).2 hb e).1
    omega
  · refine writes_map_other (addr := fun t : ℕ × ℕ => (t.1 * 2 + q) * p + t.2) (val := fun _ => (0 : ℂ)) ?_
    intro t ht e
    obtain ⟨h1, h2⟩ := mem_loop2.1 ht
    have := row_lt h1 hq h2
    omega

end Mpb.Parity

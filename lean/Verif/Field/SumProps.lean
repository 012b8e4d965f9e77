import Verif.Field.SumModel
import Verif.Field.PointProps
import Mathlib.Algebra.BigOperators.Group.List.Basic

/-!
# Property C41: every grid point of the cell is counted exactly once
-/

namespace Mpb.Field

variable {S : Shape}

/-- The grid coordinate along the last dimension. -/
def lastC (S : Shape) (p : ℕ × ℕ × ℕ) : ℕ := if S.nz > 1 then p.2.2 else if S.ny > 1 then p.2.1 else p.1

/-- The sum of a function over all grid points of the cell. -/
def cellSum {E : Type} [AddCommMonoid E] (S : Shape) (G : ℕ × ℕ × ℕ → E) : E := ((loop3 S.nx S.ny S.nz).map G).sum

theorem Shape.Ok.nlast_eq (hS : S.Ok) (hi : S.inv = true) : S.nlast = S.last / 2 + 1 := hS.last hi

theorem last_pos (hS : S.Ok) : 0 < S.last := by
  have := hS.nx; have := hS.ny; have := hS.nz
  unfold Shape.last; split_ifs <;> omega

theorem mirror_mem (hS : S.Ok) {p : ℕ × ℕ × ℕ} (hp : p.1 < S.nx ∧ p.2.1 < S.ny ∧ p.2.2 < S.nz) :
    (S.mirror p).1 < S.nx ∧ (S.mirror p).2.1 < S.ny ∧ (S.mirror p).2.2 < S.nz ∧ S.mirror (S.mirror p) = p := by
  obtain ⟨i, j, k⟩ := p
  obtain ⟨h1, h2, h3⟩ := hp
  have := hS.nx; have := hS.ny; have := hS.nz
  unfold Shape.mirror
  simp only at *
  refine ⟨?_, ?_, ?_, ?_⟩
  · split_ifs <;> omega
  · split_ifs <;> omega
  · split_ifs <;> omega
  · simp only [Prod.mk.injEq]
    refine ⟨?_, ?_, ?_⟩ <;> split_ifs <;> omega

theorem lastC_mirror (p : ℕ × ℕ × ℕ) : lastC S (S.mirror p) = if lastC S p ≠ 0 then S.last - lastC S p else 0 := by
  obtain ⟨i, j, k⟩ := p
  unfold lastC Shape.mirror Shape.last
  simp only
  split_ifs <;> rfl

theorem lastC_lt (p : ℕ × ℕ × ℕ) (hp : p.1 < S.nx ∧ p.2.1 < S.ny ∧ p.2.2 < S.nz) : lastC S p < S.last := by
  unfold lastC Shape.last
  split_ifs <;> omega

/-- The points counted for a stored point: itself and, if it is not its own half, its mirror image. -/
def countedAt (S : Shape) (p : ℕ × ℕ × ℕ) : List (ℕ × ℕ × ℕ) := p :: if S.doubled (lastC S p) then [S.mirror p] else []

/-- If a loop visits each stored point once, every point of the cell is counted exactly once. -/
theorem counted_perm (hS : S.Ok) (V : List (ℕ × ℕ × ℕ)) (hnd : V.Nodup)
    (hmem : ∀ p, p ∈ V ↔ (p.1 < S.nx ∧ p.2.1 < S.ny ∧ p.2.2 < S.nz) ∧ (S.inv = true → lastC S p < S.nlast)) :
    (V.flatMap (countedAt S)).Perm (loop3 S.nx S.ny S.nz) := by
  have hlp := last_pos hS
  -- a doubled point's mirror image is not stored
  have hdbl : ∀ p ∈ V, S.doubled (lastC S p) = true → S.inv = true ∧ lastC S p ≠ 0 ∧ 2 * lastC S p ≠ S.last := by
    intro p _ h
    unfold Shape.doubled at h
    simp only [Bool.and_eq_true, bne_iff_ne, ne_eq] at h
    obtain ⟨⟨h1, h2⟩, h3⟩ := h
    exact ⟨h1, by omega, by omega⟩
  have hnot : ∀ p ∈ V, S.doubled (lastC S p) = true → ¬ lastC S (S.mirror p) < S.nlast := by
    intro p hp h
    obtain ⟨hi, h0, h2⟩ := hdbl p hp h
    obtain ⟨hb, hl⟩ := (hmem p).1 hp
    have hl := hl hi
    rw [lastC_mirror, if_pos h0, hS.nlast_eq hi]
    rw [hS.nlast_eq hi] at hl
    omega
  have hndl : (loop3 S.nx S.ny S.nz).Nodup := by
    have := List.nodup_range (n := S.nx * S.ny * S.nz)
    rw [← loop3_map_addr] at this
    exact List.Nodup.of_map _ this
  apply (List.perm_ext_iff_of_nodup ?_ hndl).2
  · intro p
    rw [List.mem_flatMap, mem_loop3]
    constructor
    · rintro ⟨q, hq, hp⟩
      have hb := ((hmem q).1 hq).1
      unfold countedAt at hp
      rcases List.mem_cons.1 hp with rfl | hp
      · exact hb
      · split_ifs at hp
        · rw [List.mem_singleton.1 hp]
          obtain ⟨a, b, c, -⟩ := mirror_mem hS hb
          exact ⟨a, b, c⟩
        · simp at hp
    · intro hp
      by_cases hin : S.inv = true → lastC S p < S.nlast
      · exact ⟨p, (hmem p).2 ⟨hp, hin⟩, by simp [countedAt]⟩
      · push Not at hin
        obtain ⟨hi, hge⟩ := hin
        obtain ⟨a, b, c, hmm⟩ := mirror_mem hS hp
        have hlt := lastC_lt (S := S) p hp
        rw [hS.nlast_eq hi] at hge
        have hlm : lastC S (S.mirror p) = S.last - lastC S p := by rw [lastC_mirror, if_pos (by omega)]
        refine ⟨S.mirror p, (hmem _).2 ⟨⟨a, b, c⟩, fun _ => ?_⟩, ?_⟩
        · rw [hlm, hS.nlast_eq hi]; omega
        · unfold countedAt
          have : S.doubled (lastC S (S.mirror p)) = true := by
            unfold Shape.doubled
            rw [hlm]
            simp only [hi, Bool.true_and, Bool.and_eq_true, bne_iff_ne, ne_eq]
            constructor <;> omega
          rw [if_pos this, hmm]
          simp
  · rw [List.nodup_flatMap]
    constructor
    · intro p hp
      unfold countedAt
      split_ifs with h
      · simp only [List.nodup_cons, List.mem_singleton, List.not_mem_nil, not_false_eq_true, List.nodup_nil, and_true]
        intro e
        have h1 := hnot p hp h
        rw [← e] at h1
        exact h1 (((hmem p).1 hp).2 (hdbl p hp h).1)
      · simp
    · apply List.Nodup.pairwise_of_forall_ne hnd
      intro p hp q hq hne
      rw [Function.onFun, List.disjoint_left]
      intro x hx hx'
      unfold countedAt at hx hx'
      have hstored : ∀ r ∈ V, S.inv = true → lastC S r < S.nlast := fun r hr => ((hmem r).1 hr).2
      rcases List.mem_cons.1 hx with rfl | hx
      · rcases List.mem_cons.1 hx' with rfl | hx'
        · exact hne rfl
        · split_ifs at hx' with h
          · rw [List.mem_singleton] at hx'
            have := hnot q hq h
            rw [← hx'] at this
            exact this (hstored _ hp (hdbl q hq h).1)
          · simp at hx'
      · split_ifs at hx with h
        · rw [List.mem_singleton] at hx
          rcases List.mem_cons.1 hx' with rfl | hx'
          · have := hnot p hp h
            rw [← hx] at this
            exact this (hstored _ hq (hdbl p hp h).1)
          · split_ifs at hx' with h'
            · rw [List.mem_singleton] at hx'
              apply hne
              obtain ⟨-, -, -, e1⟩ := mirror_mem hS ((hmem p).1 hp).1
              obtain ⟨-, -, -, e2⟩ := mirror_mem hS ((hmem q).1 hq).1
              rw [← e1, ← hx, hx', e2]
            · simp at hx'
        · simp at hx

/-! ## The loops visit each stored point once -/

theorem other_eq (hS : S.Ok) : S.other = if S.nz > 1 then S.nx * S.ny else if S.ny > 1 then S.nx else 1 := by
  have hx := hS.nx; have hy := hS.ny; have hz := hS.nz
  unfold Shape.other Shape.last
  split_ifs with h1 h2
  · exact Nat.mul_div_cancel _ hz
  · have : S.nz = 1 := by omega
    rw [this, mul_one]; exact Nat.mul_div_cancel _ hy
  · have h3 : S.nz = 1 := by omega
    have h4 : S.ny = 1 := by omega
    rw [h3, h4, mul_one, mul_one]; exact Nat.div_self hx

/-- The point visited for the counters `(i1_, i2_)` of the half-stored loop. -/
def halfPt (S : Shape) (t : ℕ × ℕ) : ℕ × ℕ × ℕ :=
  if S.nz > 1 then (t.1 / S.ny, t.1 % S.ny, t.2) else if S.ny > 1 then (t.1, t.2, 0) else (t.2, 0, 0)

theorem visits_inv (hi : S.inv = true) : visits S =
    (loop2 S.other S.nlast).map (fun t => ⟨halfPt S t, t.1 * S.nlast + t.2, t.2, 0⟩) := by
  unfold visits halfPt
  rw [if_pos hi]

theorem visits_full (hi : ¬ S.inv = true) : visits S =
    (loop3 S.nx S.ny S.nz).map (fun t => ⟨t, (t.1 * S.ny + t.2.1) * S.nz + t.2.2, t.2.1, t.2.2⟩) := by
  unfold visits
  rw [if_neg hi]

theorem nodup_loop3 (n m l : ℕ) : (loop3 n m l).Nodup := by
  have := List.nodup_range (n := n * m * l)
  rw [← loop3_map_addr] at this
  exact List.Nodup.of_map _ this

theorem visits_nodup (hS : S.Ok) : ((visits S).map Visit.pt).Nodup := by
  by_cases hi : S.inv = true
  · rw [visits_inv hi, List.map_map]
    apply (List.nodup_map_iff_inj_on (nodup_loop2 _ _)).2
    rintro ⟨a, b⟩ ha ⟨a', b'⟩ ha' e
    obtain ⟨h1, h2⟩ := mem_loop2.1 ha
    obtain ⟨h1', h2'⟩ := mem_loop2.1 ha'
    rw [other_eq hS] at h1 h1'
    have hy := hS.ny
    simp only [Function.comp_apply, halfPt] at e
    split_ifs at * with g1 g2
    · simp only [Prod.mk.injEq] at e
      obtain ⟨e1, e2, e3⟩ := e
      simp only [Prod.mk.injEq]
      exact ⟨by rw [← Nat.div_add_mod a S.ny, ← Nat.div_add_mod a' S.ny, e1, e2], e3⟩
    · simp only [Prod.mk.injEq] at e ⊢
      exact ⟨e.1, e.2.1⟩
    · simp only [Prod.mk.injEq] at e ⊢
      simp only at h1 h1'
      exact ⟨by omega, e.1⟩
  · rw [visits_full hi, List.map_map]
    have : (Visit.pt ∘ fun t : ℕ × ℕ × ℕ => (⟨t, (t.1 * S.ny + t.2.1) * S.nz + t.2.2, t.2.1, t.2.2⟩ : Visit)) = id := rfl
    rw [this, List.map_id]
    exact nodup_loop3 _ _ _

theorem visits_mem (hS : S.Ok) (p : ℕ × ℕ × ℕ) : p ∈ (visits S).map Visit.pt ↔
    (p.1 < S.nx ∧ p.2.1 < S.ny ∧ p.2.2 < S.nz) ∧ (S.inv = true → lastC S p < S.nlast) := by
  have hx := hS.nx; have hy := hS.ny; have hz := hS.nz
  by_cases hi : S.inv = true
  · have hl := hS.last hi
    rw [visits_inv hi, List.map_map, List.mem_map]
    obtain ⟨i, j, k⟩ := p
    simp only [Function.comp_apply, hi, forall_const]
    constructor
    · rintro ⟨⟨a, b⟩, hab, e⟩
      obtain ⟨h1, h2⟩ := mem_loop2.1 hab
      rw [other_eq hS] at h1
      unfold halfPt at e
      unfold lastC
      simp only at h1 h2
      split_ifs at * with g1 g2
      · simp only [Prod.mk.injEq] at e
        obtain ⟨rfl, rfl, rfl⟩ := e
        exact ⟨⟨Nat.div_lt_of_lt_mul (by rw [mul_comm]; exact h1), Nat.mod_lt _ hy, by omega⟩, h2⟩
      · simp only [Prod.mk.injEq] at e
        obtain ⟨rfl, rfl, rfl⟩ := e
        exact ⟨⟨h1, by omega, hz⟩, h2⟩
      · simp only [Prod.mk.injEq] at e
        obtain ⟨rfl, rfl, rfl⟩ := e
        exact ⟨⟨by omega, hy, hz⟩, h2⟩
    · rintro ⟨⟨h1, h2, h3⟩, h4⟩
      unfold lastC at h4
      unfold halfPt
      have ho := other_eq hS
      split_ifs at * with g1 g2
      · refine ⟨(i * S.ny + j, k), mem_loop2.2 ⟨?_, h4⟩, ?_⟩
        · rw [ho]; exact rowMajor_lt h1 h2
        · simp only [Prod.mk.injEq, and_true]
          rw [Nat.add_comm]
          exact ⟨by rw [Nat.add_mul_div_right _ _ hy, Nat.div_eq_of_lt h2, zero_add],
            by rw [Nat.add_mul_mod_self_right, Nat.mod_eq_of_lt h2]⟩
      · refine ⟨(i, j), mem_loop2.2 ⟨by rw [ho]; exact h1, h4⟩, ?_⟩
        simp only [Prod.mk.injEq, true_and]; omega
      · refine ⟨(0, i), mem_loop2.2 ⟨by rw [ho]; exact Nat.one_pos, h4⟩, ?_⟩
        simp only [Prod.mk.injEq, true_and]; omega
  · rw [visits_full hi, List.map_map]
    have : (Visit.pt ∘ fun t : ℕ × ℕ × ℕ => (⟨t, (t.1 * S.ny + t.2.1) * S.nz + t.2.2, t.2.1, t.2.2⟩ : Visit)) = id := rfl
    rw [this, List.map_id, mem_loop3]
    simp [hi]

theorem visits_j (hi : S.inv = true) {v : Visit} (hv : v ∈ visits S) : v.j = lastC S v.pt := by
  rw [visits_inv hi] at hv
  obtain ⟨t, -, rfl⟩ := List.mem_map.1 hv
  unfold lastC halfPt
  simp only
  split_ifs <;> rfl

/-- The slabs of the processes are consecutive and make up the stored y dimension. -/
def SlabsOk (S : Shape) : List Slab → ℕ → Prop
  | [], a => a = S.dims.2.1
  | q :: qs, a => q.y0 = a ∧ SlabsOk S qs (a + q.ny)

theorem visitsMpi_range (S : Shape) : ∀ (qs : List Slab) (a : ℕ), SlabsOk S qs a → a ≤ S.dims.2.1 ∧
    ((qs.flatMap (visitsMpi S)).map Visit.pt).Nodup ∧
    ∀ p : ℕ × ℕ × ℕ, p ∈ (qs.flatMap (visitsMpi S)).map Visit.pt ↔ p.1 < S.nx ∧ (a ≤ p.2.1 ∧ p.2.1 < S.dims.2.1) ∧ p.2.2 < S.n3 := by
  intro qs
  induction qs with
  | nil =>
    intro a h
    change a = S.dims.2.1 at h
    refine ⟨h.le, by simp, fun p => ?_⟩
    simp only [List.flatMap_nil, List.map_nil, List.not_mem_nil, false_iff]
    omega
  | cons q qs ih =>
    intro a h
    obtain ⟨h1, h2⟩ := h
    obtain ⟨hle, hnd, hm⟩ := ih _ h2
    have hmq : ∀ p : ℕ × ℕ × ℕ, p ∈ (visitsMpi S q).map Visit.pt ↔ p.1 < S.nx ∧ (a ≤ p.2.1 ∧ p.2.1 < a + q.ny) ∧ p.2.2 < S.n3 := by
      intro p
      unfold visitsMpi
      rw [List.map_map, List.mem_map]
      constructor
      · rintro ⟨⟨j, i, k⟩, ht, rfl⟩
        obtain ⟨x, y, z⟩ := mem_loop3.1 ht
        simp only [Function.comp_apply] at *
        omega
      · rintro ⟨x, ⟨y, y'⟩, z⟩
        refine ⟨(p.2.1 - a, p.1, p.2.2), mem_loop3.2 ⟨by simp only; omega, x, z⟩, ?_⟩
        simp only [Function.comp_apply]
        ext <;> simp only
        omega
    have hndq : ((visitsMpi S q).map Visit.pt).Nodup := by
      unfold visitsMpi
      rw [List.map_map]
      apply (List.nodup_map_iff_inj_on (nodup_loop3 _ _ _)).2
      rintro ⟨j, i, k⟩ - ⟨j', i', k'⟩ - e
      simp only [Function.comp_apply, Prod.mk.injEq] at e ⊢
      omega
    refine ⟨by omega, ?_, ?_⟩
    · rw [List.flatMap_cons, List.map_append, List.nodup_append]
      refine ⟨hndq, hnd, ?_⟩
      rintro p hp p' hp' rfl
      have := (hmq p).1 hp
      have := (hm p).1 hp'
      omega
    · intro p
      rw [List.flatMap_cons, List.map_append, List.mem_append, hmq, hm]
      omega

theorem visitsMpi_mem (hS : S.Ok) (hr : S.nz > 1 ∨ S.ny > 1) {qs : List Slab} (hq : SlabsOk S qs 0) (p : ℕ × ℕ × ℕ) :
    p ∈ (qs.flatMap (visitsMpi S)).map Visit.pt ↔
      (p.1 < S.nx ∧ p.2.1 < S.ny ∧ p.2.2 < S.nz) ∧ (S.inv = true → lastC S p < S.nlast) := by
  rw [(visitsMpi_range S qs 0 hq).2.2]
  have hz := hS.nz
  unfold Shape.dims Shape.n3 lastC
  by_cases hi : S.inv = true
  · have hl := hS.last hi
    simp only [if_pos hi, hi, forall_const]
    split_ifs at * <;> simp only at * <;> omega
  · simp only [if_neg hi]
    constructor
    · rintro ⟨a, b, c⟩; exact ⟨⟨a, b.2, c⟩, fun h => absurd h hi⟩
    · rintro ⟨⟨a, b, c⟩, -⟩; exact ⟨a, ⟨Nat.zero_le _, b⟩, c⟩

/-! ## Sums -/

theorem foldl_sum {E ι : Type} [AddCommMonoid E] (c : ι → Bool) (g gm : ι → E) : ∀ (l : List ι) (a : E),
    l.foldl (fun acc v => if c v then acc + g v + gm v else acc + g v) a =
      a + (l.map fun v => g v + if c v then gm v else 0).sum := by
  intro l
  induction l with
  | nil => intro a; simp
  | cons v l ih =>
    intro a
    rw [List.foldl_cons, ih, List.map_cons, List.sum_cons]
    split_ifs
    · simp only [add_assoc]
    · simp only [add_assoc, add_zero, zero_add]

theorem sum_flatMap_counted {E : Type} [AddCommMonoid E] (G : ℕ × ℕ × ℕ → E) (V : List (ℕ × ℕ × ℕ)) :
    ((V.flatMap (countedAt S)).map G).sum = (V.map fun p => G p + if S.doubled (lastC S p) then G (S.mirror p) else 0).sum := by
  induction V with
  | nil => rfl
  | cons p V ih =>
    rw [List.flatMap_cons, List.map_append, List.sum_append, ih, List.map_cons, List.sum_cons]
    congr 1
    unfold countedAt
    split_ifs <;> simp

/-- The sum of a loop over stored points with the correct `last_index` is the sum over the cell. -/
theorem loopSum_eq {E : Type} [AddCommMonoid E] (hS : S.Ok) (V : List Visit) (hnd : (V.map Visit.pt).Nodup)
    (hmem : ∀ p, p ∈ V.map Visit.pt ↔ (p.1 < S.nx ∧ p.2.1 < S.ny ∧ p.2.2 < S.nz) ∧ (S.inv = true → lastC S p < S.nlast))
    (li : Visit → ℤ) (hli : S.inv = true → ∀ v ∈ V, li v = lastC S v.pt) (g gm : Visit → E) (G : ℕ × ℕ × ℕ → E)
    (hg : ∀ v ∈ V, g v = G v.pt) (hgm : S.inv = true → ∀ v ∈ V, gm v = G (S.mirror v.pt)) :
    loopSum S V li g gm = cellSum S G := by
  unfold loopSum cellSum
  rw [foldl_sum (fun v => S.doubled (li v)), zero_add, ← ((counted_perm hS _ hnd hmem).map G).sum_eq,
    sum_flatMap_counted, List.map_map]
  apply congrArg List.sum
  apply List.map_congr_left
  intro v hv
  simp only [Function.comp_apply]
  rw [hg v hv]
  congr 1
  by_cases hi : S.inv = true
  · rw [hli hi v hv, hgm hi v hv]
  · have : ∀ x, S.doubled x = false := fun x => by simp [Shape.doubled, hi]
    simp [this]

/-! ## Specification: data given on the whole cell -/

/-- The address of a stored point without MPI: row-major in the stored dimensions. -/
def addr (S : Shape) (p : ℕ × ℕ × ℕ) : ℕ := (p.1 * S.dims.2.1 + p.2.1) * S.dims.2.2 + p.2.2

/-- The array `e` holds the values of `F` (a function on the whole cell) at the stored points. -/
def Stored {E : Type} (S : Shape) (e : ℕ → E) (F : ℕ × ℕ × ℕ → E) : Prop :=
  ∀ p, p.1 < S.dims.1 → p.2.1 < S.dims.2.1 → p.2.2 < S.dims.2.2 → e (addr S p) = F p

/-- The array `e` of the process with slab `q` holds the values of `F` at the points of the slab, in y x z order. -/
def StoredMpi {E : Type} (S : Shape) (q : Slab) (e : ℕ → E) (F : ℕ × ℕ × ℕ → E) : Prop :=
  ∀ p, p.1 < S.dims.1 → q.y0 ≤ p.2.1 → p.2.1 < q.y0 + q.ny → p.2.2 < S.dims.2.2 →
    e (((p.2.1 - q.y0) * S.dims.1 + p.1) * S.dims.2.2 + p.2.2) = F p

/-- In the inversion-symmetric build the data is even: equal at mirror points. -/
def Even3 {E : Type} (S : Shape) (F : ℕ × ℕ × ℕ → E) : Prop :=
  S.inv = true → ∀ p, p.1 < S.nx → p.2.1 < S.ny → p.2.2 < S.nz → F (S.mirror p) = F p

/-- The padded last dimension (src/maxwell/maxwell.c:85). -/
def Padded (S : Shape) : Prop := S.inv = true → S.lastDimSize = 2 * S.nlast

theorem visits_addr (hS : S.Ok) {v : Visit} (hv : v ∈ visits S) :
    v.idx = addr S v.pt ∧ v.pt.1 < S.dims.1 ∧ v.pt.2.1 < S.dims.2.1 ∧ v.pt.2.2 < S.dims.2.2 := by
  have hx := hS.nx; have hy := hS.ny; have hz := hS.nz
  unfold addr Shape.dims
  by_cases hi : S.inv = true
  · rw [visits_inv hi] at hv
    obtain ⟨⟨a, b⟩, ht, rfl⟩ := List.mem_map.1 hv
    obtain ⟨h1, h2⟩ := mem_loop2.1 ht
    rw [other_eq hS] at h1
    simp only [if_pos hi, halfPt]
    simp only at h1 h2
    split_ifs at * with g1 g2
    · refine ⟨?_, Nat.div_lt_of_lt_mul (by rw [mul_comm]; exact h1), Nat.mod_lt _ hy, h2⟩
      simp only
      rw [Nat.div_add_mod']
    · have : S.nz = 1 := by omega
      exact ⟨by simp only [this]; omega, h1, h2, hz⟩
    · have e1 : S.nz = 1 := by omega
      have e2 : S.ny = 1 := by omega
      have e3 : a = 0 := by omega
      exact ⟨by simp only [e1, e2, e3]; simp, h2, hy, hz⟩
  · rw [visits_full hi] at hv
    obtain ⟨t, ht, rfl⟩ := List.mem_map.1 hv
    obtain ⟨a, b, c⟩ := mem_loop3.1 ht
    simp only [if_neg hi]
    exact ⟨trivial, a, b, c⟩

theorem visits_idx (hS : S.Ok) (hP : Padded S) : (visits S).map Visit.idx = List.range S.outSize := by
  by_cases hi : S.inv = true
  · rw [visits_inv hi, List.map_map]
    unfold Shape.outSize
    rw [if_pos hi, hP hi]
    have : S.other * (2 * S.nlast) / 2 = S.other * S.nlast := by
      rw [mul_left_comm, Nat.mul_div_cancel_left _ Nat.two_pos]
    rw [this]
    apply List.ext_getElem?
    intro n
    by_cases hn : n < S.other * S.nlast
    · have hl : 0 < S.nlast := by
        rcases Nat.eq_zero_or_pos S.nlast with h | h
        · rw [h] at hn; omega
        · exact h
      have h1 := getElem?_loop2 (n := S.other) (m := S.nlast) (i := n / S.nlast) (j := n % S.nlast)
        (Nat.div_lt_of_lt_mul (by rw [mul_comm]; exact hn)) (Nat.mod_lt _ hl)
      rw [Nat.div_add_mod'] at h1
      rw [List.getElem?_map, h1, List.getElem?_range hn]
      simp only [Option.map_some, Function.comp_apply, Nat.div_add_mod']
    · rw [List.getElem?_eq_none (by rw [List.length_map, length_loop2]; omega),
        List.getElem?_eq_none (by rw [List.length_range]; omega)]
  · rw [visits_full hi, List.map_map]
    unfold Shape.outSize
    rw [if_neg hi]
    exact loop3_map_addr _ _ _

theorem visits_mod (hi : S.inv = true) {v : Visit} (hv : v ∈ visits S) : v.idx % S.nlast = lastC S v.pt := by
  rw [← visits_j hi hv]
  rw [visits_inv hi] at hv
  obtain ⟨t, ht, rfl⟩ := List.mem_map.1 hv
  simp only
  rw [Nat.add_comm, Nat.add_mul_mod_self_right, Nat.mod_eq_of_lt (mem_loop2.1 ht).2]

/-- The point list of the visits, for the whole-cell functions. -/
theorem stored_visit {E : Type} (hS : S.Ok) {e : ℕ → E} {F : ℕ × ℕ × ℕ → E} (h : Stored S e F) {v : Visit} (hv : v ∈ visits S) :
    e v.idx = F v.pt := by
  obtain ⟨h1, h2, h3, h4⟩ := visits_addr hS hv
  rw [h1, h v.pt h2 h3 h4]

theorem visit_in_cell (hS : S.Ok) {v : Visit} (hv : v ∈ visits S) : v.pt.1 < S.nx ∧ v.pt.2.1 < S.ny ∧ v.pt.2.2 < S.nz :=
  ((visits_mem hS v.pt).1 (List.mem_map_of_mem hv)).1

/-- **C41** (flat loops, without MPI).  The sums of `compute-field-energy`, `compute-energy-in-dielectric` and
`get-epsilon` over the stored array are sums over all the points of the cell, each counted once. -/
theorem C41_flat {E : Type} [AddCommMonoid E] (hS : S.Ok) (hP : Padded S) {e : ℕ → E} {F : ℕ × ℕ × ℕ → E}
    (h : Stored S e F) (hF : Even3 S F) : flatSum S S.outSize e = cellSum S F := by
  unfold flatSum
  rw [← visits_idx hS hP, List.foldl_map]
  refine loopSum_eq hS (visits S) (visits_nodup hS) (visits_mem hS) (fun v => ((v.idx % S.nlast : ℕ) : ℤ)) ?_
    (fun v => e v.idx) (fun v => e v.idx) F ?_ ?_
  · intro hi v hv; rw [visits_mod hi hv]
  · intro v hv; exact stored_visit hS h hv
  · intro hi v hv
    obtain ⟨a, b, c⟩ := visit_in_cell hS hv
    rw [stored_visit hS h hv, hF hi _ a b c]

theorem visitsMpi_addr (hr : S.nz > 1 ∨ S.ny > 1) {q : Slab} {v : Visit} (hv : v ∈ visitsMpi S q) :
    v.idx = ((v.pt.2.1 - q.y0) * S.dims.1 + v.pt.1) * S.dims.2.2 + v.pt.2.2 ∧ v.pt.1 < S.dims.1 ∧ q.y0 ≤ v.pt.2.1 ∧
      v.pt.2.1 < q.y0 + q.ny ∧ v.pt.2.2 < S.dims.2.2 ∧ S.dims.2.2 = S.n3 ∨ S.nz = 0 := by
  by_cases hz : S.nz = 0
  · exact Or.inr hz
  · left
    have hd : S.dims.1 = S.nx ∧ S.dims.2.2 = S.n3 := by
      unfold Shape.dims Shape.n3
      split_ifs <;> simp only [and_self, true_and] <;> omega
    rw [hd.1, hd.2]
    unfold visitsMpi at hv
    obtain ⟨⟨j, i, k⟩, ht, rfl⟩ := List.mem_map.1 hv
    obtain ⟨a, b, c⟩ := mem_loop3.1 ht
    simp only at *
    refine ⟨?_, b, by omega, by omega, c, trivial⟩
    rw [Nat.add_sub_cancel]

theorem stored_visitMpi {E : Type} (hS : S.Ok) (hr : S.nz > 1 ∨ S.ny > 1) {q : Slab} {e : ℕ → E} {F : ℕ × ℕ × ℕ → E}
    (h : StoredMpi S q e F) {v : Visit} (hv : v ∈ visitsMpi S q) : e v.idx = F v.pt := by
  rcases visitsMpi_addr hr hv with ⟨h1, h2, h3, h4, h5, -⟩ | h
  · rw [h1, h v.pt h2 h3 h4 h5]
  · exact absurd h hS.nz.ne'

/-- Sums over the processes of sums over their points. -/
theorem loopSum_procs {E ι : Type} [AddCommMonoid E] (hS : S.Ok) (hr : S.nz > 1 ∨ S.ny > 1) (ps : List ι) (sl : ι → Slab)
    (hq : SlabsOk S (ps.map sl) 0) (li : ι → Visit → ℤ) (g gm : ι → Visit → E) (G : ℕ × ℕ × ℕ → E)
    (hli : S.inv = true → ∀ q ∈ ps, ∀ v ∈ visitsMpi S (sl q), li q v = lastC S v.pt)
    (hg : ∀ q ∈ ps, ∀ v ∈ visitsMpi S (sl q), g q v = G v.pt)
    (hgm : S.inv = true → ∀ q ∈ ps, ∀ v ∈ visitsMpi S (sl q), gm q v = G (S.mirror v.pt)) :
    (ps.map fun q => loopSum S (visitsMpi S (sl q)) (li q) (g q) (gm q)).sum = cellSum S G := by
  have h1 := loopSum_eq (E := E) hS ((ps.map sl).flatMap (visitsMpi S)) (visitsMpi_range S _ 0 hq).2.1
    (visitsMpi_mem hS hr hq) (fun v => lastC S v.pt) (fun _ _ _ => rfl) (fun v => G v.pt) (fun v => G (S.mirror v.pt)) G
    (fun _ _ => rfl) (fun _ _ _ => rfl)
  rw [← h1]
  unfold loopSum
  simp only
  rw [foldl_sum (fun v : Visit => S.doubled (lastC S v.pt)) (fun v => G v.pt) (fun v => G (S.mirror v.pt)), zero_add, List.flatMap_map, List.map_flatMap, List.flatMap_def,
    List.sum_flatten, List.map_map]
  apply congrArg List.sum
  apply List.map_congr_left
  intro q hqm
  rw [foldl_sum (fun v => S.doubled (li q v)), zero_add]
  simp only [Function.comp_apply]
  apply congrArg List.sum
  apply List.map_congr_left
  intro v hv
  rw [hg q hqm v hv]
  congr 1
  by_cases hi : S.inv = true
  · rw [hli hi q hqm v hv, hgm hi q hqm v hv]
  · have : ∀ x, S.doubled x = false := fun x => by simp [Shape.doubled, hi]
    simp [this]

theorem visitsMpi_idx (q : Slab) : (visitsMpi S q).map Visit.idx = List.range (S.outSizeMpi q) := by
  unfold visitsMpi Shape.outSizeMpi
  rw [List.map_map, Nat.mul_comm S.nx q.ny]
  exact loop3_map_addr _ _ _

/-- **C41** (flat loops, with MPI).  The sums over all the processes are sums over all the points of the cell, each
counted once. -/
theorem C41_flat_mpi {E : Type} [AddCommMonoid E] (hS : S.Ok) (hr : S.nz > 1 ∨ S.ny > 1) (ps : List (Slab × (ℕ → E)))
    (hq : SlabsOk S (ps.map Prod.fst) 0) {F : ℕ × ℕ × ℕ → E} (h : ∀ q ∈ ps, StoredMpi S q.1 q.2 F) (hF : Even3 S F) :
    (ps.map fun q => flatSumMpi S q.1 (S.outSizeMpi q.1) q.2).sum = cellSum S F := by
  rw [← loopSum_procs hS hr ps Prod.fst hq (fun q v => lastC S v.pt) (fun q v => q.2 v.idx) (fun q v => q.2 v.idx) F
    (fun _ _ _ _ _ => rfl) (fun q hqm v hv => stored_visitMpi hS hr (h q hqm) hv) ?_]
  · apply congrArg List.sum
    apply List.map_congr_left
    intro q hqm
    unfold flatSumMpi loopSum
    rw [← visitsMpi_idx, List.foldl_map]
    apply List.foldl_ext
    intro a v hv
    by_cases hi : S.inv = true
    · have : (if S.nz = 1 then ((v.idx / S.nx + q.1.y0 : ℕ) : ℤ) else ((v.idx % S.nlast : ℕ) : ℤ)) = lastC S v.pt := by
        have hz := hS.nz; have hx := hS.nx
        unfold visitsMpi at hv
        obtain ⟨⟨j, i, k⟩, ht, rfl⟩ := List.mem_map.1 hv
        obtain ⟨b, c, d⟩ := mem_loop3.1 ht
        unfold lastC
        unfold Shape.n3 at d ⊢
        simp only at b c d ⊢
        rw [if_pos hi] at d ⊢
        by_cases g1 : S.nz > 1
        · rw [if_pos g1] at d ⊢
          rw [if_neg (by omega : ¬ S.nz = 1), if_pos g1, Nat.add_comm, Nat.add_mul_mod_self_right, Nat.mod_eq_of_lt d]
        · rw [if_neg g1] at d ⊢
          have : k = 0 := by omega
          rw [if_pos (by omega : S.nz = 1), if_neg g1, if_pos (by omega : S.ny > 1), this, mul_one, add_zero, Nat.add_comm (j * S.nx),
            Nat.add_mul_div_right _ _ hx, Nat.div_eq_of_lt c, zero_add]
      rw [this]
    · have : ∀ x, S.doubled x = false := fun x => by simp [Shape.doubled, hi]
      simp only [this]
  · intro hi q hqm v hv
    have hm : v.pt ∈ (((ps.map Prod.fst).flatMap (visitsMpi S)).map Visit.pt) :=
      List.mem_map_of_mem (List.mem_flatMap.2 ⟨q.1, List.mem_map_of_mem hqm, hv⟩)
    obtain ⟨a, b, c⟩ := ((visitsMpi_mem hS hr hq v.pt).1 hm).1
    rw [stored_visitMpi hS hr (h q hqm) hv, hF hi _ a b c]

/-- **C41** (energy in a range of dielectric constants): the energy of all points of the cell whose dielectric constant is
in the range. -/
theorem C41_dielectric (hS : S.Ok) (hP : Padded S) {eps energy : ℕ → ℝ} {Feps Fen : ℕ × ℕ × ℕ → ℝ} (h1 : Stored S eps Feps)
    (h2 : Stored S energy Fen) (hF1 : Even3 S Feps) (hF2 : Even3 S Fen) (lo hi : ℝ) :
    energyInDielectric S S.outSize eps energy lo hi =
      cellSum S (by classical exact fun p => if lo ≤ Feps p ∧ Feps p ≤ hi then Fen p else 0) := by
  unfold energyInDielectric
  apply C41_flat hS hP
  · intro p a b c
    simp only [ge_iff_le]
    rw [h1 p a b c, h2 p a b c]
  · intro hi p a b c
    simp only
    rw [hF1 hi p a b c, hF2 hi p a b c]

/-- **C41** (averages printed by `get-epsilon`): the arithmetic sum, the sum of inverses and the number of points above
1.0001, whose quotients by the number of points are printed, are those of the whole cell. -/
theorem C41_averages (hS : S.Ok) (hP : Padded S) {eps : ℕ → ℝ} {F : ℕ × ℕ × ℕ → ℝ} (h : Stored S eps F) (hF : Even3 S F) :
    flatSum S S.outSize eps = cellSum S F ∧ flatSum S S.outSize (fun i => 1 / eps i) = cellSum S (fun p => 1 / F p) ∧
      flatSum S S.outSize (by classical exact fun i => if eps i > 1.0001 then 1 else 0) =
        ((loop3 S.nx S.ny S.nz).countP (by classical exact fun p => decide (F p > 1.0001)) : ℕ) := by
  refine ⟨C41_flat hS hP h hF, C41_flat hS hP ?_ ?_, ?_⟩
  · intro p a b c; simp only; rw [h p a b c]
  · intro hi p a b c; simp only; rw [hF hi p a b c]
  · rw [C41_flat (F := fun p => by classical exact if F p > 1.0001 then (1 : ℕ) else 0) hS hP]
    · unfold cellSum
      rw [List.countP_eq_length_filter]
      induction loop3 S.nx S.ny S.nz with
      | nil => rfl
      | cons p l ih =>
        rw [List.map_cons, List.sum_cons, ih, List.filter_cons]
        by_cases hp : F p > 1.0001
        · simp only [hp, if_true, decide_true, List.length_cons]; omega
        · simp only [hp, if_false, decide_false, zero_add, Bool.false_eq_true]
    · intro p a b c; simp only; rw [h p a b c]
    · intro hi p a b c; simp only; rw [hF hi p a b c]

/-! ## `integrate-fields` -/

/-- The complex conjugate of a field value: the value at the mirror point in the inversion-symmetric build. -/
noncomputable def Item.conj : Item → Item
  | .r x => .r x
  | .c z => .c (starRingEnd ℂ z)
  | .v w => .v ⟨starRingEnd ℂ w.x, starRingEnd ℂ w.y, starRingEnd ℂ w.z⟩

/-- A field object holds the values `W` on the whole cell: the stored values, and by symmetry the conjugate values at
mirror points. -/
structure Fld.Is (S : Shape) (f : Fld) (W : ℕ × ℕ × ℕ → Item) : Prop where
  stored : Stored S f.item W
  sym : S.inv = true → ∀ p, p.1 < S.nx → p.2.1 < S.ny → p.2.2 < S.nz → W (S.mirror p) = (W p).conj

/-- … in an MPI run. -/
structure Fld.IsMpi (S : Shape) (q : Slab) (f : Fld) (W : ℕ × ℕ × ℕ → Item) : Prop where
  stored : StoredMpi S q f.item W
  sym : S.inv = true → ∀ p, p.1 < S.nx → p.2.1 < S.ny → p.2.2 < S.nz → W (S.mirror p) = (W p).conj

/-- Not a complex scalar field. -/
def Fld.NotCs : Fld → Prop
  | .cs _ => False
  | _ => True

theorem itemMirror_eq {f : Fld} (h : f.NotCs) (i : ℕ) : f.itemMirror i = (f.item i).conj := by
  cases f with
  | rs f => rfl
  | cs f => exact absurd h (by simp [Fld.NotCs])
  | cv f => rfl

/-- **C41** (`integrate-fields`, partial: not for complex scalar fields in the inversion-symmetric build).  The integral of
any function of the position and of any list of fields is the sum of its values over all points of the cell. -/
theorem C41_integrate_partial (hS : S.Ok) (fs : List (Fld × (ℕ × ℕ × ℕ → Item))) (h : ∀ f ∈ fs, f.1.Is S f.2)
    (hcs : S.inv = true → ∀ f ∈ fs, f.1.NotCs) (f : ℕ × ℕ × ℕ → List Item → ℂ) :
    integrateFields S (fs.map Prod.fst) f = cellSum S (fun p => f p (fs.map fun g => g.2 p)) := by
  have hit : ∀ v ∈ visits S, (fs.map Prod.fst).map (·.item v.idx) = fs.map fun g => g.2 v.pt := by
    intro v hv
    rw [List.map_map]
    apply List.map_congr_left
    intro g hg
    exact stored_visit hS (h g hg).stored hv
  unfold integrateFields
  refine loopSum_eq hS _ (visits_nodup hS) (visits_mem hS) _ ?_ _ _ _ ?_ ?_
  · intro hi v hv; rw [visits_j hi hv]
  · intro v hv
    rw [hit v hv]
  · intro hi v hv
    obtain ⟨a, b, c⟩ := visit_in_cell hS hv
    congr 1
    rw [List.map_map]
    apply List.map_congr_left
    intro g hg
    simp only [Function.comp_apply]
    rw [itemMirror_eq (hcs hi g hg), (h g hg).sym hi _ a b c, ← stored_visit hS (h g hg).stored hv]

/-- **C41** (`integrate-fields` with MPI, partial as above): the total over the processes. -/
theorem C41_integrate_mpi_partial (hS : S.Ok) (hr : S.nz > 1 ∨ S.ny > 1) (Ws : List (ℕ × ℕ × ℕ → Item)) (ps : List (Slab × List Fld))
    (hq : SlabsOk S (ps.map Prod.fst) 0)
    (h : ∀ q ∈ ps, List.Forall₂ (fun f W => f.IsMpi S q.1 W ∧ (S.inv = true → f.NotCs)) q.2 Ws)
    (f : ℕ × ℕ × ℕ → List Item → ℂ) :
    (ps.map fun q => integrateFieldsMpi S q.1 q.2 f).sum = cellSum S (fun p => f p (Ws.map (· p))) := by
  have hmap : ∀ (α β : Type) (R : α → β → Prop) (l : List α) (l' : List β) (a : α → Item) (b : β → Item),
      List.Forall₂ R l l' → (∀ x y, R x y → a x = b y) → l.map a = l'.map b := by
    intro α β R l l' a b hR hab
    induction hR with
    | nil => rfl
    | cons hxy _ ih => rw [List.map_cons, List.map_cons, hab _ _ hxy, ih]
  refine loopSum_procs hS hr ps Prod.fst hq (fun q v => if S.nz = 1 then ((v.j + q.1.y0 : ℕ) : ℤ) else v.k) _ _ _ ?_ ?_ ?_
  · intro hi q hqm v hv
    unfold visitsMpi at hv
    obtain ⟨⟨j, i, k⟩, ht, rfl⟩ := List.mem_map.1 hv
    have hz := hS.nz
    unfold lastC
    simp only
    split_ifs <;> first | rfl | omega
  · intro q hqm v hv
    congr 1
    refine hmap _ _ _ _ _ _ _ (h q hqm) ?_
    rintro g W ⟨hg, -⟩
    exact stored_visitMpi hS hr hg.stored hv
  · intro hi q hqm v hv
    have hm : v.pt ∈ (((ps.map Prod.fst).flatMap (visitsMpi S)).map Visit.pt) :=
      List.mem_map_of_mem (List.mem_flatMap.2 ⟨q.1, List.mem_map_of_mem hqm, hv⟩)
    obtain ⟨a, b, c⟩ := ((visitsMpi_mem hS hr hq v.pt).1 hm).1
    congr 1
    refine hmap _ _ _ _ _ _ _ (h q hqm) ?_
    rintro g W ⟨hg, hn⟩
    rw [itemMirror_eq (hn hi), hg.sym hi _ a b c, ← stored_visitMpi hS hr hg.stored hv]

/-! ## The routines with uninitialised counters -/

/-- **C41** (`compute-energy-in-object-list`, `compute-field-integral`, `compute-energy-integral`, partial: only the build
for complex fields).  All points of the cell are counted once, whatever the uninitialised variables hold. -/
theorem C41_xyz_partial {E : Type} [AddCommMonoid E] (hS : S.Ok) (hi : S.inv = false) (j0 : ℤ) (g : ℕ × ℕ × ℕ → ℕ → Bool → E) :
    xyzSum S j0 g = cellSum S (fun p => g p (addr S p) false) := by
  unfold xyzSum
  refine loopSum_eq hS _ (visits_nodup hS) (visits_mem hS) _ (by simp [hi]) _ _ _ ?_ (by simp [hi])
  intro v hv
  rw [(visits_addr hS hv).1]

/-- … for the energy in objects. -/
theorem C41_objects_partial (hS : S.Ok) (hi : S.inv = false) (j0 : ℤ) (inside : ℕ × ℕ × ℕ → Bool) (energy : ℕ → ℝ)
    (F : ℕ × ℕ × ℕ → ℝ) (h : Stored S energy F) :
    energyInObjects S j0 inside energy = cellSum S (fun p => if inside p then F p else 0) := by
  unfold energyInObjects
  refine loopSum_eq hS _ (visits_nodup hS) (visits_mem hS) _ (by simp [hi]) _ _ _ ?_ (by simp [hi])
  intro v hv
  rw [stored_visit hS h hv]

/-- … for the integral of a field with its Bloch phase. -/
theorem C41_field_integral_partial (hS : S.Ok) (hi : S.inv = false) (j0 : ℤ) (phase : ℕ × ℕ × ℕ → ℂ) (e : ℕ → V3 ℂ)
    (F : ℕ × ℕ × ℕ → V3 ℂ) (h : Stored S e F) (f : ℕ × ℕ × ℕ → V3 ℂ → ℂ) :
    fieldIntegral S j0 phase e f = cellSum S (fun p => f p (V3.map (· * phase p) (F p))) := by
  unfold fieldIntegral xyzSum
  refine loopSum_eq hS _ (visits_nodup hS) (visits_mem hS) _ (by simp [hi]) _ _ _ ?_ (by simp [hi])
  intro v hv
  simp only [Bool.false_eq_true, if_false]
  rw [stored_visit hS h hv]

/-- … for the integral of an energy density: the user's function gets the energy of the point it is called for. -/
theorem C41_energy_integral_partial (hS : S.Ok) (hi : S.inv = false) (j0 : ℤ) (e : ℕ → ℝ) (F : ℕ × ℕ × ℕ → ℝ) (h : Stored S e F)
    (f : ℕ × ℕ × ℕ → ℝ → ℝ) : energyIntegral S j0 e f = cellSum S (fun p => f p (F p)) := by
  unfold energyIntegral xyzSum
  refine loopSum_eq hS _ (visits_nodup hS) (visits_mem hS) _ (by simp [hi]) _ _ _ ?_ (by simp [hi])
  intro v hv
  beta_reduce
  rw [stored_visit hS h hv]

/-- … with MPI: the processes together count every point of the cell once, each with its own value. -/
theorem C41_xyz_mpi_partial {E T : Type} [AddCommMonoid E] (hS : S.Ok) (hi : S.inv = false) (hr : S.nz > 1 ∨ S.ny > 1) (j0 k0 : ℤ)
    (ps : List (Slab × (ℕ → T))) (hq : SlabsOk S (ps.map Prod.fst) 0) {F : ℕ × ℕ × ℕ → T} (h : ∀ q ∈ ps, StoredMpi S q.1 q.2 F)
    (f : ℕ × ℕ × ℕ → T → Bool → E) :
    (ps.map fun q => xyzSumMpi S q.1 j0 k0 fun p i m => f p (q.2 i) m).sum = cellSum S (fun p => f p (F p) false) := by
  unfold xyzSumMpi
  refine loopSum_procs hS hr ps Prod.fst hq (fun q _ => if S.nz = 1 then j0 + q.1.y0 else k0) (fun q v => f v.pt (q.2 v.idx) false)
    (fun q v => f (S.mirror v.pt) (q.2 v.idx) true) (fun p => f p (F p) false) (by simp [hi]) (fun q hqm v hv => ?_) (by simp [hi])
  rw [stored_visitMpi hS hr (h q hqm) hv]

/-- **C40/C41 (layout)**: the stored box has exactly as many points as the array; in the symmetric build only the last direction with
more than one point is shortened, to `last_dim_size / 2`, and otherwise the box is the grid. -/
theorem C41_layout (hS : S.Ok) (hP : Padded S) :
    S.dims.1 * S.dims.2.1 * S.dims.2.2 = S.outSize ∧
    (S.inv = false → S.dims = (S.nx, S.ny, S.nz)) ∧
    (S.inv = true → S.nz > 1 → S.dims = (S.nx, S.ny, S.lastDimSize / 2)) ∧
    (S.inv = true → S.nz = 1 → S.ny > 1 → S.dims = (S.nx, S.lastDimSize / 2, 1)) ∧
    (S.inv = true → S.nz = 1 → S.ny = 1 → S.dims = (S.lastDimSize / 2, 1, 1)) := by
  have hx := hS.nx
  have hy := hS.ny
  have hz := hS.nz
  refine ⟨?_, ?_, ?_, ?_, ?_⟩
  · unfold Shape.dims Shape.outSize Shape.other Shape.last
    by_cases hi : S.inv = true
    · have hp := hP hi
      rw [if_pos hi, if_pos hi, hp]
      split_ifs with g1 g2
      · rw [Nat.mul_div_cancel _ hz, ← Nat.mul_div_cancel_left (S.nx * S.ny * S.nlast) (show 0 < 2 by omega)]
        congr 1; ring
      · have : S.nz = 1 := by omega
        rw [this, Nat.mul_one, Nat.mul_one, Nat.mul_div_cancel _ hy, ← Nat.mul_div_cancel_left (S.nx * S.nlast) (show 0 < 2 by omega)]
        congr 1; ring
      · have h1 : S.nz = 1 := by omega
        have h2 : S.ny = 1 := by omega
        rw [h1, h2, Nat.mul_one, Nat.mul_one, Nat.mul_one, Nat.mul_one, Nat.div_self hx, Nat.one_mul, Nat.mul_div_cancel_left _ (by omega)]
    · rw [if_neg hi, if_neg hi]
  · intro hi
    unfold Shape.dims
    simp [hi]
  · intro hi h1
    unfold Shape.dims Shape.nlast
    simp [hi, h1]
  · intro hi h1 h2
    unfold Shape.dims Shape.nlast
    simp [hi, h1, h2]
  · intro hi h1 h2
    unfold Shape.dims Shape.nlast
    simp [hi, h1, h2]

/-! ## Examples and refutations -/

/-- A one-dimensional cell of three points in the inversion-symmetric build: two are stored. -/
theorem exS_ok : exS.Ok ∧ Padded exS := by
  refine ⟨⟨by decide, by decide, by decide, fun _ => by decide⟩, fun _ => by decide⟩

/-- An even function on that cell. -/
def exE (p : ℕ × ℕ × ℕ) : ℝ := if p.1 = 0 then 5 else 2

theorem exE_even : Even3 exS exE := by
  intro _ p h1 h2 h3
  obtain ⟨i, j, k⟩ := p
  have h1 : i < 3 := h1
  unfold exE Shape.mirror
  have hx : exS.nx = 3 := rfl
  simp only [hx]
  interval_cases i <;> norm_num

theorem exE_stored : Stored exS (fun i => if i = 0 then (5 : ℝ) else 2) exE := by
  intro p h1 h2 h3
  have hd : exS.dims = (2, 1, 1) := by decide
  rw [hd] at h1 h2 h3
  obtain ⟨i, j, k⟩ := p
  unfold addr exE
  rw [hd]
  simp only at *
  have : j = 0 := by omega
  have : k = 0 := by omega
  subst_vars
  simp

/-- Non-vacuity: 5 + 2 + 2. -/
example : flatSum exS exS.outSize (fun i => if i = 0 then (5 : ℝ) else 2) = 9 := by
  rw [C41_flat exS_ok.1 exS_ok.2 exE_stored exE_even]
  unfold cellSum
  have : loop3 exS.nx exS.ny exS.nz = [(0, 0, 0), (1, 0, 0), (2, 0, 0)] := by decide
  rw [this]
  simp only [List.map_cons, List.map_nil, List.sum_cons, List.sum_nil, exE]
  norm_num

/-- Non-vacuity (MPI): a 2 × 3 grid in the inversion-symmetric build, the stored rows split between two processes. -/
example : SlabsOk ⟨2, 3, 1, true, 4⟩ [⟨0, 1⟩, ⟨1, 1⟩] 0 ∧ (⟨2, 3, 1, true, 4⟩ : Shape).Ok :=
  ⟨⟨rfl, rfl, rfl⟩, ⟨by decide, by decide, by decide, fun _ => by decide⟩⟩

/-- **C41, refuted for the energy in objects and for field integrals** of the inversion-symmetric build: whatever the
uninitialised counter holds, the result is wrong for the field `5, 2, 2` (with an object that fills the cell). -/
theorem C41_objects_refuted (j0 : ℤ) :
    energyInObjects exS j0 (fun _ => true) (fun i => if i = 0 then (5 : ℝ) else 2) ≠ cellSum exS exE ∧
      energyIntegral exS j0 (fun i => if i = 0 then (5 : ℝ) else 2) (fun _ e => e) ≠ cellSum exS exE := by
  have hl : loop3 exS.nx exS.ny exS.nz = [(0, 0, 0), (1, 0, 0), (2, 0, 0)] := by decide
  have hl2 : loop2 exS.other exS.nlast = [(0, 0), (0, 1)] := by decide
  have hc : cellSum exS exE = 9 := by
    unfold cellSum
    rw [hl]
    simp only [List.map_cons, List.map_nil, List.sum_cons, List.sum_nil, exE]
    norm_num
  have hv : visits exS = [⟨(0, 0, 0), 0, 0, 0⟩, ⟨(1, 0, 0), 1, 1, 0⟩] := by
    rw [visits_inv rfl, hl2]; rfl
  rw [hc]
  unfold energyInObjects energyIntegral xyzSum loopSum
  rw [hv]
  simp only [List.foldl_cons, List.foldl_nil, if_true, if_false, one_ne_zero]
  constructor <;> split_ifs <;> norm_num

/-- The symmetric complex scalar field of the refutation: `5, 2+i, 2-i`. -/
noncomputable def exC (p : ℕ × ℕ × ℕ) : ℂ := if p.1 = 0 then 5 else if p.1 = 1 then ⟨2, 1⟩ else ⟨2, -1⟩

/-- **C41, refuted for complex scalar fields**: in the inversion-symmetric build the value at a mirror point is not
conjugated.  Integrating `5, 2+i, 2-i` gives `9 + 2i` instead of `9`. -/
theorem C41_integrate_refuted :
    (Fld.cs fun i => if i = 0 then 5 else ⟨2, 1⟩).Is exS (fun p => .c (exC p)) ∧
      integrateFields exS [.cs fun i => if i = 0 then 5 else ⟨2, 1⟩] (fun _ l => match l with | [.c z] => z | _ => 0) = ⟨9, 2⟩ ∧
      cellSum exS exC = 9 := by
  have hl : loop3 exS.nx exS.ny exS.nz = [(0, 0, 0), (1, 0, 0), (2, 0, 0)] := by decide
  have hl2 : loop2 exS.other exS.nlast = [(0, 0), (0, 1)] := by decide
  have hv : visits exS = [⟨(0, 0, 0), 0, 0, 0⟩, ⟨(1, 0, 0), 1, 1, 0⟩] := by
    rw [visits_inv rfl, hl2]; rfl
  have hd0 : exS.doubled 0 = false := by decide
  have hd1 : exS.doubled 1 = true := by decide
  refine ⟨⟨?_, ?_⟩, ?_, ?_⟩
  · intro p h1 h2 h3
    have hd : exS.dims = (2, 1, 1) := by decide
    rw [hd] at h1 h2 h3
    obtain ⟨i, j, k⟩ := p
    unfold addr exC Fld.item
    rw [hd]
    simp only at *
    have : j = 0 := by omega
    have : k = 0 := by omega
    subst_vars
    interval_cases i <;> simp
  · intro _ p h1 h2 h3
    obtain ⟨i, j, k⟩ := p
    have h1 : i < 3 := h1
    unfold exC Shape.mirror Item.conj
    have hx : exS.nx = 3 := rfl
    simp only [hx]
    congr 1
    interval_cases i
    · simp only [ne_eq, not_true_eq_false, if_true, if_false]
      exact (map_ofNat (starRingEnd ℂ) 5).symm
    · norm_num
      apply Complex.ext <;> simp
    · norm_num
      apply Complex.ext <;> simp
  · unfold integrateFields loopSum
    rw [hv]
    simp only [List.foldl_cons, List.foldl_nil, Nat.cast_zero, Nat.cast_one, hd0, hd1, List.map_cons, List.map_nil, Fld.item,
      Fld.itemMirror, if_true, if_false, one_ne_zero, Bool.false_eq_true, zero_add]
    apply Complex.ext <;> simp <;> norm_num
  · unfold cellSum
    rw [hl]
    simp only [List.map_cons, List.map_nil, List.sum_cons, List.sum_nil, exC]
    norm_num
    apply Complex.ext <;> simp <;> norm_num

end Mpb.Field

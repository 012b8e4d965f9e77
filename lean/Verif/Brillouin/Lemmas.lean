import Verif.Common
import Verif.Brillouin.Spec
import Mathlib.Order.Interval.Finset.Basic
import Mathlib.Data.Set.Card
import Mathlib.Data.Int.Interval
import Mathlib.Order.Interval.Set.Basic
import Mathlib.Algebra.Order.Archimedean.Basic

namespace Mpb.Brillouin
open Spec

variable {F : Type*} [Field F] [LinearOrder F] [IsStrictOrderedRing F] [FloorRing F]

theorem lenSq_eq (B : M3 F) (k : V3 F) : lenSq B k = n2 B k := by
  simp only [lenSq, n2, V3.dot]; ring

theorem n2_nonneg (B : M3 F) (k : V3 F) : 0 ≤ n2 B k := by
  rw [← lenSq_eq]; simp only [lenSq]; positivity

theorem Spec.Equivalent.refl (k : V3 F) : Equivalent k k := ⟨0, 0, 0, by ext <;> simp [ivec]⟩

theorem Spec.Equivalent.trans {a b c : V3 F} (h : Equivalent a b) (h' : Equivalent b c) : Equivalent a c := by
  obtain ⟨i, j, l, rfl⟩ := h
  obtain ⟨i', j', l', rfl⟩ := h'
  exact ⟨i + i', j + j', l + l', by ext <;> simp [ivec] <;> ring⟩

/-! ### Termination measure -/

/-- The lattice shifts that bring `k` strictly closer to the origin. -/
def closer (B : M3 F) (k : V3 F) : Set (ℤ × ℤ × ℤ) := {z | n2 B (k + ivec z.1 z.2.1 z.2.2) < n2 B k}

theorem abs_le_of_sq_lt {a R : F} (h : a ^ 2 ≤ R) : |a| ≤ 1 + R := by
  rcases le_or_gt |a| 1 with h1 | h1
  · nlinarith [sq_nonneg a]
  · nlinarith [sq_abs a, abs_nonneg a]

theorem n2_bound {B C : M3 F} (hC : ∀ v, C.mulVec (B.mulVec v) = v) {k : V3 F} {R : F} (h : n2 B k < R) :
    ∃ M : F, 0 ≤ M ∧ (∀ k, n2 B k < R → |k.x| ≤ M ∧ |k.y| ≤ M ∧ |k.z| ≤ M) := by
  have hR : 0 ≤ R := (n2_nonneg B k).trans h.le
  refine ⟨(|C.c0.x| + |C.c1.x| + |C.c2.x| + |C.c0.y| + |C.c1.y| + |C.c2.y| + |C.c0.z| + |C.c1.z| + |C.c2.z|) * (1 + R),
    by positivity, ?_⟩
  intro k h
  set w := B.mulVec k with hw
  have hk : C.mulVec w = k := hC k
  have hq : w.x ^ 2 + w.y ^ 2 + w.z ^ 2 < R := by
    have := lenSq_eq B k
    simp only [lenSq] at this
    rw [← hw] at this
    rw [this]; exact h
  have hx : |w.x| ≤ 1 + R := abs_le_of_sq_lt (by nlinarith [sq_nonneg w.y, sq_nonneg w.z])
  have hy : |w.y| ≤ 1 + R := abs_le_of_sq_lt (by nlinarith [sq_nonneg w.x, sq_nonneg w.z])
  have hz : |w.z| ≤ 1 + R := abs_le_of_sq_lt (by nlinarith [sq_nonneg w.x, sq_nonneg w.y])
  have key : ∀ a b c : F, |a * w.x + b * w.y + c * w.z| ≤ (|a| + |b| + |c|) * (1 + R) := by
    intro a b c
    have h1 := abs_add_le (a * w.x + b * w.y) (c * w.z)
    have h2 := abs_add_le (a * w.x) (b * w.y)
    rw [abs_mul, abs_mul] at h2
    rw [abs_mul c] at h1
    have e1 := mul_le_mul_of_nonneg_left hx (abs_nonneg a)
    have e2 := mul_le_mul_of_nonneg_left hy (abs_nonneg b)
    have e3 := mul_le_mul_of_nonneg_left hz (abs_nonneg c)
    linarith
  have hS : ∀ s t : F, s ≤ t → s * (1 + R) ≤ t * (1 + R) := fun s t hst =>
    mul_le_mul_of_nonneg_right hst (by linarith)
  have e := congrArg V3.x hk
  have f := congrArg V3.y hk
  have g := congrArg V3.z hk
  simp only [M3.mulVec] at e f g
  refine ⟨?_, ?_, ?_⟩
  · rw [← e]; refine (key _ _ _).trans (hS _ _ ?_)
    linarith [abs_nonneg C.c0.y, abs_nonneg C.c1.y, abs_nonneg C.c2.y, abs_nonneg C.c0.z, abs_nonneg C.c1.z, abs_nonneg C.c2.z]
  · rw [← f]; refine (key _ _ _).trans (hS _ _ ?_)
    linarith [abs_nonneg C.c0.x, abs_nonneg C.c1.x, abs_nonneg C.c2.x, abs_nonneg C.c0.z, abs_nonneg C.c1.z, abs_nonneg C.c2.z]
  · rw [← g]; refine (key _ _ _).trans (hS _ _ ?_)
    linarith [abs_nonneg C.c0.y, abs_nonneg C.c1.y, abs_nonneg C.c2.y, abs_nonneg C.c0.x, abs_nonneg C.c1.x, abs_nonneg C.c2.x]

theorem int_mem_of_abs {u M : F} {a : ℤ} (h : |u + a| ≤ M) : a ∈ Set.Icc ⌊-M - u⌋ ⌈M - u⌉ := by
  obtain ⟨h1, h2⟩ := abs_le.1 h
  constructor
  · have : ((⌊-M - u⌋ : ℤ) : F) ≤ a := (Int.floor_le _).trans (by linarith)
    exact_mod_cast this
  · have : (a : F) ≤ ((⌈M - u⌉ : ℤ) : F) := le_trans (by linarith) (Int.le_ceil _)
    exact_mod_cast this

theorem closer_finite {B : M3 F} (hB : Nonsingular B) (k : V3 F) : (closer B k).Finite := by
  obtain ⟨C, hC⟩ := hB
  rcases (closer B k).eq_empty_or_nonempty with h | ⟨z, hz⟩
  · rw [h]; exact Set.finite_empty
  obtain ⟨M, -, hM⟩ := n2_bound hC (show n2 B (k + ivec z.1 z.2.1 z.2.2) < n2 B k from hz)
  apply Set.Finite.subset (((Set.finite_Icc ⌊-M - k.x⌋ ⌈M - k.x⌉)).prod
    ((Set.finite_Icc ⌊-M - k.y⌋ ⌈M - k.y⌉).prod (Set.finite_Icc ⌊-M - k.z⌋ ⌈M - k.z⌉)))
  rintro ⟨a, b, c⟩ h
  obtain ⟨hx, hy, hz⟩ := hM _ h
  exact ⟨int_mem_of_abs hx, int_mem_of_abs hy, int_mem_of_abs hz⟩

/-- The termination measure. -/
noncomputable def meas (B : M3 F) (k : V3 F) : ℕ := (closer B k).ncard

theorem closer_shift {B : M3 F} {k : V3 F} {a b c : ℤ} (h : n2 B (k + ivec a b c) ≤ n2 B k) :
    (fun z : ℤ × ℤ × ℤ => (a + z.1, b + z.2.1, c + z.2.2)) '' closer B (k + ivec a b c) ⊆ closer B k := by
  rintro _ ⟨⟨i, j, l⟩, hz, rfl⟩
  simp only [closer, Set.mem_setOf_eq] at hz ⊢
  have e : k + ivec (a + i) (b + j) (c + l) = k + ivec a b c + ivec i j l := by
    ext <;> simp [ivec] <;> ring
  rw [e]; exact hz.trans_le h

theorem shift_inj (a b c : ℤ) : Function.Injective (fun z : ℤ × ℤ × ℤ => (a + z.1, b + z.2.1, c + z.2.2)) := by
  rintro ⟨i, j, l⟩ ⟨i', j', l'⟩ h
  simp only [Prod.mk.injEq] at h ⊢
  omega

theorem meas_le {B : M3 F} (hB : Nonsingular B) {k r : V3 F} (he : Equivalent k r) (h : n2 B r ≤ n2 B k) :
    meas B r ≤ meas B k := by
  obtain ⟨a, b, c, rfl⟩ := he
  have h1 := Set.ncard_le_ncard (closer_shift h) (closer_finite hB k)
  rwa [Set.ncard_image_of_injective _ (shift_inj a b c)] at h1

theorem meas_lt {B : M3 F} (hB : Nonsingular B) {k r : V3 F} (he : Equivalent k r) (h : n2 B r < n2 B k) :
    meas B r < meas B k := by
  obtain ⟨a, b, c, rfl⟩ := he
  have h1 : (fun z : ℤ × ℤ × ℤ => (a + z.1, b + z.2.1, c + z.2.2)) '' closer B (k + ivec a b c) ⊂ closer B k := by
    refine ⟨closer_shift h.le, fun hs => ?_⟩
    obtain ⟨⟨i, j, l⟩, hz, he⟩ := hs (show (a, b, c) ∈ closer B k from h)
    simp only [Prod.mk.injEq] at he
    obtain ⟨rfl, rfl, rfl⟩ : i = 0 ∧ j = 0 ∧ l = 0 := by omega
    simp only [closer, Set.mem_setOf_eq] at hz
    have e : k + ivec a b c + ivec 0 0 0 = k + ivec a b c := by ext <;> simp [ivec]
    rw [e] at hz
    exact lt_irrefl _ hz
  have h2 := Set.ncard_lt_ncard h1 (closer_finite hB k)
  rwa [Set.ncard_image_of_injective _ (shift_inj a b c)] at h2

/-! ### The inner loop -/

/-- `v` is an integer vector. -/
def IsInt (v : V3 F) : Prop := ∃ a b c : ℤ, v = ivec a b c

theorem isInt_tryList {v : V3 F} (h : v ∈ (tryList : List (V3 F))) : IsInt v := by
  simp only [tryList, List.mem_cons, List.not_mem_nil, or_false] at h
  rcases h with h | h | h | h | h | h | h | h | h | h | h | h | h <;> subst h
  exacts [⟨1, 0, 0, by simp [ivec]⟩, ⟨0, 1, 0, by simp [ivec]⟩, ⟨0, 0, 1, by simp [ivec]⟩,
    ⟨0, 1, 1, by simp [ivec]⟩, ⟨1, 0, 1, by simp [ivec]⟩, ⟨1, 1, 0, by simp [ivec]⟩,
    ⟨0, 1, -1, by simp [ivec]⟩, ⟨1, 0, -1, by simp [ivec]⟩, ⟨1, -1, 0, by simp [ivec]⟩,
    ⟨1, 1, 1, by simp [ivec]⟩, ⟨-1, 1, 1, by simp [ivec]⟩, ⟨1, -1, 1, by simp [ivec]⟩, ⟨1, 1, -1, by simp [ivec]⟩]

theorem IsInt.neg {v : V3 F} (h : IsInt v) : IsInt (0 - v) := by
  obtain ⟨a, b, c, rfl⟩ := h
  exact ⟨-a, -b, -c, by ext <;> simp [ivec]⟩

/-- What one loop does: the result is equivalent and either unchanged or strictly closer. -/
def Good (B : M3 F) (k r : V3 F) : Prop := Equivalent k r ∧ (r = k ∨ n2 B r < n2 B k)

theorem Good.le {B : M3 F} {k r : V3 F} (h : Good B k r) : n2 B r ≤ n2 B k := by
  rcases h.2 with h | h
  · rw [h]
  · exact h.le

theorem Good.trans {B : M3 F} {a b c : V3 F} (h : Good B a b) (h' : Good B b c) : Good B a c := by
  refine ⟨h.1.trans h'.1, ?_⟩
  rcases h.2 with rfl | h1
  · exact h'.2
  · exact Or.inr (h'.le.trans_lt h1)

theorem tryPlus_good {B : M3 F} {v : V3 F} (hv : IsInt v) :
    ∀ {m : ℕ} {k r : V3 F}, tryPlus B m k v = some r → Good B k r ∧ (r = k → n2 B k ≤ n2 B (k + v)) := by
  intro m
  induction m with
  | zero => intro k r h; simp [tryPlus] at h
  | succ m ih =>
    intro k r h
    rw [tryPlus] at h
    split_ifs at h with hc
    · obtain ⟨hg, -⟩ := ih h
      have hlt : n2 B r < n2 B k := hg.le.trans_lt hc
      refine ⟨⟨?_, Or.inr hlt⟩, fun e => by rw [e] at hlt; exact absurd hlt (lt_irrefl _)⟩
      obtain ⟨a, b, c, rfl⟩ := hv
      exact Equivalent.trans ⟨a, b, c, rfl⟩ hg.1
    · simp only [Option.some.injEq] at h
      subst h
      exact ⟨⟨Equivalent.refl _, Or.inl rfl⟩, fun _ => not_lt.1 hc⟩

theorem tryPlus_total {B : M3 F} (hB : Nonsingular B) {v : V3 F} (hv : IsInt v) :
    ∀ {m : ℕ} {k : V3 F}, meas B k < m → ∃ r, tryPlus B m k v = some r := by
  intro m
  induction m with
  | zero => intro k h; omega
  | succ m ih =>
    intro k h
    rw [tryPlus]
    split_ifs with hc
    · apply ih
      have : Equivalent k (k + v) := by obtain ⟨a, b, c, rfl⟩ := hv; exact ⟨a, b, c, rfl⟩
      have := meas_lt hB this hc
      omega
    · exact ⟨k, rfl⟩

theorem try_good {B : M3 F} {v : V3 F} (hv : IsInt v) {m : ℕ} {k r : V3 F} (h : try' B m k v = some r) :
    Good B k r ∧ (r = k → n2 B k ≤ n2 B (k + v) ∧ n2 B k ≤ n2 B (k + (0 - v))) := by
  simp only [try', Option.bind_eq_bind, Option.bind_eq_some_iff] at h
  obtain ⟨k1, h1, h2⟩ := h
  obtain ⟨g1, p1⟩ := tryPlus_good hv h1
  obtain ⟨g2, p2⟩ := tryPlus_good hv.neg h2
  refine ⟨g1.trans g2, fun e => ?_⟩
  have hk1 : k1 = k := by
    rcases g1.2 with h | h
    · exact h
    · exact absurd (e ▸ g2.le) (not_le.2 h)
  subst hk1
  exact ⟨p1 rfl, p2 e⟩

theorem try_total {B : M3 F} (hB : Nonsingular B) {v : V3 F} (hv : IsInt v) {m : ℕ} {k : V3 F} (h : meas B k < m) :
    ∃ r, try' B m k v = some r := by
  obtain ⟨k1, h1⟩ := tryPlus_total hB hv h
  have g := (tryPlus_good hv h1).1
  have hm := meas_le hB g.1 g.le
  obtain ⟨r, h2⟩ := tryPlus_total hB hv.neg (lt_of_le_of_lt hm h)
  exact ⟨r, by simp [try', h1, h2]⟩

theorem tryFold_good {B : M3 F} {m : ℕ} : ∀ {vs : List (V3 F)} {k r : V3 F}, (∀ v ∈ vs, IsInt v) →
    tryFold B m vs k = some r →
    Good B k r ∧ (r = k → ∀ v ∈ vs, n2 B k ≤ n2 B (k + v) ∧ n2 B k ≤ n2 B (k + (0 - v))) := by
  intro vs
  induction vs with
  | nil =>
    intro k r _ h
    simp only [tryFold, Option.some.injEq] at h
    subst h
    exact ⟨⟨Equivalent.refl _, Or.inl rfl⟩, fun _ v hv => absurd hv (List.not_mem_nil)⟩
  | cons v vs ih =>
    intro k r hv h
    simp only [tryFold, Option.bind_eq_bind, Option.bind_eq_some_iff] at h
    obtain ⟨k1, h1, h2⟩ := h
    obtain ⟨g1, p1⟩ := try_good (hv v (by simp)) h1
    obtain ⟨g2, p2⟩ := ih (fun w hw => hv w (by simp [hw])) h2
    refine ⟨g1.trans g2, fun e => ?_⟩
    have hk1 : k1 = k := by
      rcases g1.2 with h | h
      · exact h
      · exact absurd (e ▸ g2.le) (not_le.2 h)
    subst hk1
    intro w hw
    rcases List.mem_cons.1 hw with rfl | hw
    · exact p1 rfl
    · exact p2 e w hw

theorem tryFold_total {B : M3 F} (hB : Nonsingular B) {m : ℕ} : ∀ {vs : List (V3 F)} {k : V3 F}, (∀ v ∈ vs, IsInt v) →
    meas B k < m → ∃ r, tryFold B m vs k = some r := by
  intro vs
  induction vs with
  | nil => intro k _ _; exact ⟨k, rfl⟩
  | cons v vs ih =>
    intro k hv h
    obtain ⟨k1, h1⟩ := try_total hB (hv v (by simp)) h
    have g := (try_good (hv v (by simp)) h1).1
    obtain ⟨r, h2⟩ := ih (k := k1) (fun w hw => hv w (by simp [hw])) (lt_of_le_of_lt (meas_le hB g.1 g.le) h)
    exact ⟨r, by simp [tryFold, h1, h2]⟩

theorem repeat_good {B : M3 F} {m : ℕ} : ∀ {n : ℕ} {k r : V3 F}, tryAllRepeat B m n k = some r →
    Good B k r ∧ ∀ v ∈ (tryList : List (V3 F)), n2 B r ≤ n2 B (r + v) ∧ n2 B r ≤ n2 B (r + (0 - v)) := by
  intro n
  induction n with
  | zero => intro k r h; simp [tryAllRepeat] at h
  | succ n ih =>
    intro k r h
    simp only [tryAllRepeat, Option.bind_eq_bind, Option.bind_eq_some_iff] at h
    obtain ⟨k1, h1, h2⟩ := h
    obtain ⟨g1, p1⟩ := tryFold_good (fun v hv => isInt_tryList hv) h1
    split_ifs at h2 with hc
    · obtain ⟨g2, p2⟩ := ih h2
      exact ⟨g1.trans g2, p2⟩
    · simp only [Option.some.injEq] at h2
      subst h2
      have : k1 = k := by
        rcases g1.2 with h | h
        · exact h
        · exact absurd h hc
      exact ⟨⟨Equivalent.refl _, Or.inl rfl⟩, p1 this⟩

theorem repeat_total {B : M3 F} (hB : Nonsingular B) {m : ℕ} : ∀ {n : ℕ} {k : V3 F}, meas B k < n → meas B k < m →
    ∃ r, tryAllRepeat B m n k = some r := by
  intro n
  induction n with
  | zero => intro k h; omega
  | succ n ih =>
    intro k h hm
    obtain ⟨k1, h1⟩ := tryFold_total hB (vs := tryList) (fun v hv => isInt_tryList hv) hm
    have g := (tryFold_good (fun v hv => isInt_tryList hv) h1).1
    simp only [tryAllRepeat, tryAll, h1, Option.bind_eq_bind, Option.bind_some]
    split_ifs with hc
    · have := meas_lt hB g.1 hc
      exact ih (by omega) (by omega)
    · exact ⟨k, rfl⟩

theorem local_of_list {B : M3 F} {r : V3 F}
    (h : ∀ v ∈ (tryList : List (V3 F)), n2 B r ≤ n2 B (r + v) ∧ n2 B r ≤ n2 B (r + (0 - v))) : LocallyMinimal B r := by
  intro a b c ha hb hc
  rw [lenSq_eq, lenSq_eq]
  have hmem : (a = 0 ∧ b = 0 ∧ c = 0) ∨ ivec a b c ∈ (tryList : List (V3 F)) ∨ ivec (-a) (-b) (-c) ∈ (tryList : List (V3 F)) := by
    obtain ⟨h1, h2⟩ := abs_le.1 ha
    obtain ⟨h3, h4⟩ := abs_le.1 hb
    obtain ⟨h5, h6⟩ := abs_le.1 hc
    interval_cases a <;> interval_cases b <;> interval_cases c <;> simp [ivec, tryList]
  rcases hmem with ⟨rfl, rfl, rfl⟩ | hm | hm
  · have : r + ivec 0 0 0 = r := by ext <;> simp [ivec]
    rw [this]
  · exact (h _ hm).1
  · have e : r + ivec a b c = r + (0 - ivec (-a) (-b) (-c)) := by ext <;> simp [ivec]
    rw [e]; exact (h _ hm).2

/-! ### Selling-reduced (obtuse superbase) lattices -/

/-- The combination `a0 u0 + a1 u1 + a2 u2 + a3 u3` with `u0 = -(u1 + u2 + u3)`. -/
def comb (u1 u2 u3 : V3 F) (a0 a1 a2 a3 : F) : V3 F :=
  V3.smul (a1 - a0) u1 + V3.smul (a2 - a0) u2 + V3.smul (a3 - a0) u3

theorem comb_dot (u1 u2 u3 : V3 F) (a0 a1 a2 a3 b0 b1 b2 b3 : F) :
    (comb u1 u2 u3 a0 a1 a2 a3).dot (comb u1 u2 u3 b0 b1 b2 b3) =
      u1.dot (u1 + u2 + u3) * ((a0 - a1) * (b0 - b1)) + u2.dot (u1 + u2 + u3) * ((a0 - a2) * (b0 - b2)) +
      u3.dot (u1 + u2 + u3) * ((a0 - a3) * (b0 - b3)) + -(u1.dot u2) * ((a1 - a2) * (b1 - b2)) +
      -(u1.dot u3) * ((a1 - a3) * (b1 - b3)) + -(u2.dot u3) * ((a2 - a3) * (b2 - b3)) := by
  simp only [comb, V3.dot, V3.add_x, V3.add_y, V3.add_z, V3.smul_x, V3.smul_y, V3.smul_z]
  ring

/-- Indicator of the maximal level. -/
def top (M n : ℤ) : ℤ := if n = M then 1 else 0

theorem top_mono {M a b : ℤ} (ha : a ≤ M) (hb : b ≤ M) :
    0 ≤ ((a - top M a : ℤ) - (b - top M b : ℤ)) * (top M a - top M b) := by
  unfold top
  split_ifs with h1 h2 h2
  · simp
  · have : b < M := lt_of_le_of_ne hb h2
    subst h1; nlinarith
  · have : a < M := lt_of_le_of_ne ha h1
    subst h2; nlinarith
  · simp

theorem selling {u1 u2 u3 R : V3 F} (h12 : u1.dot u2 ≤ 0) (h13 : u1.dot u3 ≤ 0) (h23 : u2.dot u3 ≤ 0)
    (h01 : 0 ≤ u1.dot (u1 + u2 + u3)) (h02 : 0 ≤ u2.dot (u1 + u2 + u3)) (h03 : 0 ≤ u3.dot (u1 + u2 + u3))
    (hl : ∀ s0 s1 s2 s3 : ℤ, (s0 = 0 ∨ s0 = 1) → (s1 = 0 ∨ s1 = 1) → (s2 = 0 ∨ s2 = 1) → (s3 = 0 ∨ s3 = 1) →
      R.dot R ≤ (R + comb u1 u2 u3 s0 s1 s2 s3).dot (R + comb u1 u2 u3 s0 s1 s2 s3)) :
    ∀ (d : ℕ) (L M n0 n1 n2 n3 : ℤ), M - L ≤ d → (L ≤ n0 ∧ n0 ≤ M) → (L ≤ n1 ∧ n1 ≤ M) → (L ≤ n2 ∧ n2 ≤ M) →
      (L ≤ n3 ∧ n3 ≤ M) →
      R.dot R ≤ (R + comb u1 u2 u3 n0 n1 n2 n3).dot (R + comb u1 u2 u3 n0 n1 n2 n3) := by
  have hexp : ∀ a b : V3 F, (a + b).dot (a + b) = a.dot a + 2 * a.dot b + b.dot b := by
    intro a b; simp only [V3.dot, V3.add_x, V3.add_y, V3.add_z]; ring
  intro d
  induction d with
  | zero =>
    intro L M n0 n1 n2 n3 hd h0 h1 h2 h3
    have e1 : n1 = n0 := by push_cast at hd; omega
    have e2 : n2 = n0 := by push_cast at hd; omega
    have e3 : n3 = n0 := by push_cast at hd; omega
    subst e1; subst e2; subst e3
    have e : R + comb u1 u2 u3 (n3 : F) n3 n3 n3 = R := by ext <;> simp [comb]
    rw [e]
  | succ d ih =>
    intro L M n0 n1 n2 n3 hd h0 h1 h2 h3
    by_cases hLM : L = M
    · exact ih L M n0 n1 n2 n3 (by omega) h0 h1 h2 h3
    have hrec := ih L (M - 1) (n0 - top M n0) (n1 - top M n1) (n2 - top M n2) (n3 - top M n3) (by push_cast at hd; omega)
      (by unfold top; split_ifs <;> omega) (by unfold top; split_ifs <;> omega)
      (by unfold top; split_ifs <;> omega) (by unfold top; split_ifs <;> omega)
    have htop : ∀ n, top M n = 0 ∨ top M n = 1 := by intro n; unfold top; split_ifs <;> simp
    have hs := hl (top M n0) (top M n1) (top M n2) (top M n3) (htop _) (htop _) (htop _) (htop _)
    set z' := comb u1 u2 u3 ((n0 - top M n0 : ℤ) : F) ((n1 - top M n1 : ℤ) : F) ((n2 - top M n2 : ℤ) : F)
      ((n3 - top M n3 : ℤ) : F) with hz'
    set v := comb u1 u2 u3 (top M n0 : F) (top M n1 : F) (top M n2 : F) (top M n3 : F) with hv
    have hsum : comb u1 u2 u3 (n0 : F) n1 n2 n3 = z' + v := by
      rw [hz', hv]
      ext <;> simp [comb] <;> ring
    have hzv : 0 ≤ z'.dot v := by
      rw [hz', hv, comb_dot]
      have c : ∀ a b : ℤ, a ≤ M → b ≤ M →
          (0 : F) ≤ (((a - top M a : ℤ) : F) - ((b - top M b : ℤ) : F)) * ((top M a : F) - (top M b : F)) := by
        intro a b ha hb
        have := top_mono ha hb
        exact_mod_cast this
      have q1 := mul_nonneg h01 (c n0 n1 h0.2 h1.2)
      have q2 := mul_nonneg h02 (c n0 n2 h0.2 h2.2)
      have q3 := mul_nonneg h03 (c n0 n3 h0.2 h3.2)
      have q4 := mul_nonneg (neg_nonneg.2 h12) (c n1 n2 h1.2 h2.2)
      have q5 := mul_nonneg (neg_nonneg.2 h13) (c n1 n3 h1.2 h3.2)
      have q6 := mul_nonneg (neg_nonneg.2 h23) (c n2 n3 h2.2 h3.2)
      linarith
    rw [hexp] at hrec hs
    rw [hsum, hexp, hexp]
    have hR : R.dot (z' + v) = R.dot z' + R.dot v := by
      simp only [V3.dot, V3.add_x, V3.add_y, V3.add_z]; ring
    rw [hR]
    linarith

theorem mulVec_add (B : M3 F) (a b : V3 F) : B.mulVec (a + b) = B.mulVec a + B.mulVec b := by
  ext <;> simp [M3.mulVec] <;> ring

/-- Local minimality suffices on Selling-reduced lattices. -/
theorem inFirstZone_of_local {B : M3 F} (hS : SellingReduced B) {r : V3 F} (h : LocallyMinimal B r) :
    InFirstZone B r := by
  obtain ⟨t1, t2, t3, hbasis, hsub, h12, h13, h23, h01, h02, h03⟩ := hS
  rintro r' ⟨a, b, c, rfl⟩
  obtain ⟨n1, n2', n3, hx, hy, hz⟩ := hbasis a b c
  set U := fun t : V3 ℤ => B.mulVec (ivec t.x t.y t.z) with hU
  have hcomb : ∀ s0 s1 s2 s3 : ℤ, B.mulVec (r + ivec ((s1 - s0) * t1.x + (s2 - s0) * t2.x + (s3 - s0) * t3.x)
      ((s1 - s0) * t1.y + (s2 - s0) * t2.y + (s3 - s0) * t3.y) ((s1 - s0) * t1.z + (s2 - s0) * t2.z + (s3 - s0) * t3.z)) =
      B.mulVec r + comb (U t1) (U t2) (U t3) s0 s1 s2 s3 := by
    intro s0 s1 s2 s3
    rw [mulVec_add]
    congr 1
    ext <;> simp [hU, comb, M3.mulVec, ivec] <;> ring
  have key := selling (u1 := U t1) (u2 := U t2) (u3 := U t3) (R := B.mulVec r) h12 h13 h23 h01 h02 h03 (by
    intro s0 s1 s2 s3 k0 k1 k2 k3
    have hb : |((s1 - s0) * t1.x + (s2 - s0) * t2.x + (s3 - s0) * t3.x)| ≤ 1 ∧
        |((s1 - s0) * t1.y + (s2 - s0) * t2.y + (s3 - s0) * t3.y)| ≤ 1 ∧
        |((s1 - s0) * t1.z + (s2 - s0) * t2.z + (s3 - s0) * t3.z)| ≤ 1 := by
      rcases k0 with rfl | rfl
      · obtain ⟨q1, q2, q3⟩ := hsub s1 s2 s3 k1 k2 k3
        refine ⟨?_, ?_, ?_⟩ <;> simpa using ‹_›
      · obtain ⟨q1, q2, q3⟩ := hsub (1 - s1) (1 - s2) (1 - s3) (by omega) (by omega) (by omega)
        refine ⟨?_, ?_, ?_⟩
        · rw [← abs_neg]; convert q1 using 2; ring
        · rw [← abs_neg]; convert q2 using 2; ring
        · rw [← abs_neg]; convert q3 using 2; ring
    have := h _ _ _ hb.1 hb.2.1 hb.2.2
    rw [lenSq_eq, lenSq_eq] at this
    unfold n2 at this
    rwa [hcomb] at this)
  have e := hcomb 0 n1 n2' n3
  simp only [sub_zero] at e
  rw [← hx, ← hy, ← hz] at e
  have hm1 : min (min 0 n1) (min n2' n3) ≤ 0 := (min_le_left _ _).trans (min_le_left _ _)
  have hm2 : min (min 0 n1) (min n2' n3) ≤ n1 := (min_le_left _ _).trans (min_le_right _ _)
  have hm3 : min (min 0 n1) (min n2' n3) ≤ n2' := (min_le_right _ _).trans (min_le_left _ _)
  have hm4 : min (min 0 n1) (min n2' n3) ≤ n3 := (min_le_right _ _).trans (min_le_right _ _)
  have hM1 : 0 ≤ max (max 0 n1) (max n2' n3) := (le_max_left _ _).trans (le_max_left _ _)
  have hM2 : n1 ≤ max (max 0 n1) (max n2' n3) := (le_max_right _ _).trans (le_max_left _ _)
  have hM3 : n2' ≤ max (max 0 n1) (max n2' n3) := (le_max_left _ _).trans (le_max_right _ _)
  have hM4 : n3 ≤ max (max 0 n1) (max n2' n3) := (le_max_right _ _).trans (le_max_right _ _)
  have := key (max (max 0 n1) (max n2' n3) - min (min 0 n1) (min n2' n3)).toNat _ _ 0 n1 n2' n3
    (by omega) ⟨hm1, hM1⟩ ⟨hm2, hM2⟩ ⟨hm3, hM3⟩ ⟨hm4, hM4⟩
  rw [lenSq_eq, lenSq_eq]
  unfold n2
  rw [e]
  exact this

end Mpb.Brillouin

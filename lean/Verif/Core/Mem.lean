import Verif.Common
import Mathlib.Data.List.Nodup
import Mathlib.Data.List.ProdSigma
import Mathlib.Data.List.Range

/-!
# Array memories and C loops

A C array is modelled by a total function `ℕ → α` (address to content); theorems state which addresses are touched.
`writes` is a sequence of assignments; `loop2`, `loop3` list the index tuples of nested `for` loops in execution order.
-/

namespace Mpb

section
variable {α ι : Type*}

/-- Perform the assignments `mem[a] = v` of a list, in order. -/
def writes (l : List (ℕ × α)) (mem : ℕ → α) : ℕ → α := l.foldl (fun m w => Function.update m w.1 w.2) mem

@[simp] theorem writes_nil (mem : ℕ → α) : writes [] mem = mem := rfl
theorem writes_cons (w : ℕ × α) (l : List (ℕ × α)) (mem : ℕ → α) :
    writes (w :: l) mem = writes l (Function.update mem w.1 w.2) := rfl
theorem writes_append (l l' : List (ℕ × α)) (mem : ℕ → α) : writes (l ++ l') mem = writes l' (writes l mem) := by
  simp [writes, List.foldl_append]

theorem writes_of_not_mem {l : List (ℕ × α)} {mem : ℕ → α} {a : ℕ} (h : ∀ w ∈ l, w.1 ≠ a) : writes l mem a = mem a := by
  induction l generalizing mem with
  | nil => rfl
  | cons w l ih =>
    rw [writes_cons, ih (fun w' hw' => h w' (List.mem_cons_of_mem _ hw'))]
    rw [Function.update_of_ne]
    exact fun e => h w (by simp) e.symm

theorem writes_of_mem {l : List (ℕ × α)} {mem : ℕ → α} {a : ℕ} {v : α} (hm : (a, v) ∈ l)
    (hu : ∀ w ∈ l, w.1 = a → w.2 = v) : writes l mem a = v := by
  induction l generalizing mem with
  | nil => simp at hm
  | cons w l ih =>
    rw [writes_cons]
    by_cases hl : ∃ w' ∈ l, w'.1 = a
    · obtain ⟨w', hw', e⟩ := hl
      have e2 := hu w' (List.mem_cons_of_mem _ hw') e
      apply ih
      · rw [← e, ← e2]; exact hw'
      · exact fun w'' hw'' => hu w'' (List.mem_cons_of_mem _ hw'')
    · push Not at hl
      rw [writes_of_not_mem hl]
      rcases List.mem_cons.1 hm with rfl | hm
      · simp
      · exact absurd rfl (hl _ hm)

/-- A loop that writes `val i` at `addr i` for each index `i`, with different addresses for different indices. -/
theorem writes_map_apply {idx : List ι} {addr : ι → ℕ} {val : ι → α} {mem : ℕ → α} {i : ι} (hi : i ∈ idx)
    (hinj : ∀ j ∈ idx, addr j = addr i → val j = val i) : writes (idx.map fun j => (addr j, val j)) mem (addr i) = val i := by
  apply writes_of_mem
  · exact List.mem_map.2 ⟨i, hi, rfl⟩
  · intro w hw e
    obtain ⟨j, hj, rfl⟩ := List.mem_map.1 hw
    exact hinj j hj e

theorem writes_map_other {idx : List ι} {addr : ι → ℕ} {val : ι → α} {mem : ℕ → α} {a : ℕ} (h : ∀ j ∈ idx, addr j ≠ a) :
    writes (idx.map fun j => (addr j, val j)) mem a = mem a := by
  apply writes_of_not_mem
  intro w hw
  obtain ⟨j, hj, rfl⟩ := List.mem_map.1 hw
  exact h j hj

/-- `for (i = 0; i < n; ++i) for (j = 0; j < m; ++j)`. -/
def loop2 (n m : ℕ) : List (ℕ × ℕ) := (List.range n).flatMap fun i => (List.range m).map fun j => (i, j)

/-- Three nested loops. -/
def loop3 (n m l : ℕ) : List (ℕ × ℕ × ℕ) :=
  (List.range n).flatMap fun i => (List.range m).flatMap fun j => (List.range l).map fun k => (i, j, k)

theorem mem_loop2 {n m : ℕ} {x : ℕ × ℕ} : x ∈ loop2 n m ↔ x.1 < n ∧ x.2 < m := by
  obtain ⟨i, j⟩ := x
  simp only [loop2, List.mem_flatMap, List.mem_range, List.mem_map, Prod.mk.injEq]
  constructor
  · rintro ⟨a, ha, b, hb, rfl, rfl⟩; exact ⟨ha, hb⟩
  · rintro ⟨h1, h2⟩; exact ⟨i, h1, j, h2, rfl, rfl⟩

theorem mem_loop3 {n m l : ℕ} {x : ℕ × ℕ × ℕ} : x ∈ loop3 n m l ↔ x.1 < n ∧ x.2.1 < m ∧ x.2.2 < l := by
  obtain ⟨i, j, k⟩ := x
  simp only [loop3, List.mem_flatMap, List.mem_range, List.mem_map, Prod.mk.injEq]
  constructor
  · rintro ⟨a, ha, b, hb, c, hc, rfl, rfl, rfl⟩; exact ⟨ha, hb, hc⟩
  · rintro ⟨h1, h2, h3⟩; exact ⟨i, h1, j, h2, k, h3, rfl, rfl, rfl⟩

end

/-- Row-major index `q * n + r` with `r < n` determines `q` and `r`. -/
theorem rowMajor_inj {n q r q' r' : ℕ} (hr : r < n) (hr' : r' < n) (h : q * n + r = q' * n + r') : q = q' ∧ r = r' := by
  have hn : 0 < n := by omega
  have h1 : (q * n + r) / n = q := by
    rw [Nat.add_comm, Nat.add_mul_div_right _ _ hn, Nat.div_eq_of_lt hr, Nat.zero_add]
  have h2 : (q' * n + r') / n = q' := by
    rw [Nat.add_comm, Nat.add_mul_div_right _ _ hn, Nat.div_eq_of_lt hr', Nat.zero_add]
  have : q = q' := by rw [← h1, ← h2, h]
  subst this
  exact ⟨rfl, by omega⟩

theorem rowMajor_lt {n m q r : ℕ} (hq : q < m) (hr : r < n) : q * n + r < m * n := by
  calc q * n + r < q * n + n := by omega
    _ = (q + 1) * n := by ring
    _ ≤ m * n := Nat.mul_le_mul_right _ hq

theorem getElem?_flatMap_const {α β : Type*} {l : List α} {g : α → List β} {n : ℕ} (hg : ∀ a ∈ l, (g a).length = n) :
    ∀ (i j : ℕ), j < n → (l.flatMap g)[i * n + j]? = (l[i]?).bind (fun a => (g a)[j]?) := by
  induction l with
  | nil => intro i j _; simp
  | cons a l ih =>
    intro i j hj
    have ha : (g a).length = n := hg a (by simp)
    rw [List.flatMap_cons]
    cases i with
    | zero =>
      rw [List.getElem?_append_left (by omega)]
      simp
    | succ i =>
      rw [List.getElem?_append_right (by rw [ha, Nat.succ_mul]; omega)]
      have e : (i + 1) * n + j - (g a).length = i * n + j := by rw [ha, Nat.succ_mul]; omega
      rw [e, ih (fun b hb => hg b (List.mem_cons_of_mem _ hb)) i j hj]
      simp

theorem length_loop2 (n m : ℕ) : (loop2 n m).length = n * m := by
  simp [loop2, List.length_flatMap]

theorem length_loop3 (n m l : ℕ) : (loop3 n m l).length = n * m * l := by
  simp [loop3, List.length_flatMap, mul_assoc]

theorem getElem?_loop2 {n m i j : ℕ} (hi : i < n) (hj : j < m) : (loop2 n m)[i * m + j]? = some (i, j) := by
  rw [loop2, getElem?_flatMap_const (n := m) (by simp) i j hj]
  simp [hi, hj]

theorem getElem?_loop3 {n m l i j k : ℕ} (hi : i < n) (hj : j < m) (hk : k < l) :
    (loop3 n m l)[(i * m + j) * l + k]? = some (i, j, k) := by
  have e : (i * m + j) * l + k = i * (m * l) + (j * l + k) := by ring
  rw [e, loop3, getElem?_flatMap_const (n := m * l) (by simp [List.length_flatMap]) i _ (rowMajor_lt hj hk)]
  simp only [List.getElem?_range hi, Option.bind_some]
  rw [getElem?_flatMap_const (n := l) (by simp) j k hk]
  simp [hj, hk]

/-- The addresses of a triple loop over a row-major array are `0, 1, 2, …`, each once. -/
theorem loop3_map_addr (n m l : ℕ) :
    (loop3 n m l).map (fun t : ℕ × ℕ × ℕ => (t.1 * m + t.2.1) * l + t.2.2) = List.range (n * m * l) := by
  apply List.ext_getElem?
  intro a
  by_cases ha : a < n * m * l
  · have hl0 : 0 < l := by
      rcases Nat.eq_zero_or_pos l with h | h
      · subst h; simp at ha
      · exact h
    have hm0 : 0 < m := by
      rcases Nat.eq_zero_or_pos m with h | h
      · subst h; simp at ha
      · exact h
    have d1 : a % l < l := Nat.mod_lt _ hl0
    have d2 : a / l % m < m := Nat.mod_lt _ hm0
    have d3 : a / l / m < n := by
      rw [Nat.div_div_eq_div_mul]
      apply Nat.div_lt_of_lt_mul
      calc a < n * m * l := ha
        _ = l * m * n := by ring
    have en : (a / l / m * m + a / l % m) * l + a % l = a := by
      rw [Nat.div_add_mod', Nat.div_add_mod']
    rw [List.getElem?_range ha, List.getElem?_map]
    conv_lhs => rw [← en]
    rw [getElem?_loop3 d3 d2 d1]
    simp [en]
  · rw [List.getElem?_eq_none (by rw [List.length_map, length_loop3]; omega),
      List.getElem?_eq_none (by rw [List.length_range]; omega)]

/-- A loop that replaces the content of `addr t` by `f t` of its old content, for pairwise different addresses. -/
theorem foldl_update_spec {α ι : Type*} (addr : ι → ℕ) (f : ι → α → α) : ∀ (l : List ι) (mem : ℕ → α),
    (l.map addr).Nodup →
    let r := l.foldl (fun mem t => Function.update mem (addr t) (f t (mem (addr t)))) mem
    (∀ t ∈ l, r (addr t) = f t (mem (addr t))) ∧ (∀ a, a ∉ l.map addr → r a = mem a) := by
  intro l
  induction l with
  | nil => intro mem _; simp
  | cons t l ih =>
    intro mem hp
    rw [List.map_cons, List.nodup_cons] at hp
    obtain ⟨h1, h2⟩ := ih (Function.update mem (addr t) (f t (mem (addr t)))) hp.2
    simp only [List.foldl_cons]
    refine ⟨fun t' ht' => ?_, fun a ha => ?_⟩
    · rcases List.mem_cons.1 ht' with rfl | hm
      · rw [h2 _ hp.1, Function.update_self]
      · have hne : addr t' ≠ addr t := fun e => hp.1 (e ▸ List.mem_map_of_mem hm)
        rw [h1 t' hm, Function.update_of_ne hne]
    · rw [List.map_cons, List.mem_cons, not_or] at ha
      rw [h2 a ha.2, Function.update_of_ne ha.1]

/-- A loop whose pass `t` reads and writes only its own set `S t` of addresses, the sets being disjoint: the final content of
`S t` is the one pass `t` would compute from the initial memory. -/
theorem foldl_local_spec {α ι : Type*} (S : ι → ℕ → Prop) (step : (ℕ → α) → ι → (ℕ → α)) :
    ∀ (l : List ι) (mem : ℕ → α),
    (∀ t ∈ l, ∀ m a, ¬ S t a → step m t a = m a) →
    (∀ t ∈ l, ∀ m m' : ℕ → α, (∀ a, S t a → m a = m' a) → ∀ a, S t a → step m t a = step m' t a) →
    l.Pairwise (fun t t' => ∀ a, S t a → ¬ S t' a) →
    (∀ t ∈ l, ∀ a, S t a → l.foldl step mem a = step mem t a) ∧
    (∀ a, (∀ t ∈ l, ¬ S t a) → l.foldl step mem a = mem a) := by
  intro l
  induction l with
  | nil => intro mem _ _ _; simp
  | cons t l ih =>
    intro mem ho hl hp
    rw [List.pairwise_cons] at hp
    obtain ⟨h1, h2⟩ := ih (step mem t) (fun t' ht' => ho t' (List.mem_cons_of_mem _ ht'))
      (fun t' ht' => hl t' (List.mem_cons_of_mem _ ht')) hp.2
    rw [List.foldl_cons]
    refine ⟨fun t' ht' a ha => ?_, fun a ha => ?_⟩
    · rcases List.mem_cons.1 ht' with rfl | hm
      · rw [h2 a (fun t'' ht'' => hp.1 t'' ht'' a ha)]
      · rw [h1 t' hm a ha]
        refine hl t' ht' _ _ (fun a' ha' => ?_) a ha
        exact ho t (by simp) mem a' (fun hc => hp.1 t' hm a' hc ha')
    · rw [h2 a (fun t' ht' => ha t' (List.mem_cons_of_mem _ ht')), ho t (by simp) mem a (ha t (by simp))]

/-- A loop whose pass `t` stores at the addresses `S t` values that do not depend on the memory or the pass. -/
theorem foldl_const_spec {α ι : Type*} (S : ι → ℕ → Prop) (v : ℕ → α) (step : (ℕ → α) → ι → (ℕ → α)) :
    ∀ (l : List ι) (mem : ℕ → α), (∀ t ∈ l, ∀ m a, ¬ S t a → step m t a = m a) →
    (∀ t ∈ l, ∀ m a, S t a → step m t a = v a) →
    (∀ a, (∃ t ∈ l, S t a) → l.foldl step mem a = v a) ∧ (∀ a, (∀ t ∈ l, ¬ S t a) → l.foldl step mem a = mem a) := by
  intro l
  induction l with
  | nil => intro mem _ _; simp
  | cons t l ih =>
    intro mem ho hv
    obtain ⟨h1, h2⟩ := ih (step mem t) (fun t' ht' => ho t' (List.mem_cons_of_mem _ ht'))
      (fun t' ht' => hv t' (List.mem_cons_of_mem _ ht'))
    rw [List.foldl_cons]
    refine ⟨fun a ha => ?_, fun a ha => ?_⟩
    · by_cases hl : ∃ t' ∈ l, S t' a
      · exact h1 a hl
      · push Not at hl
        rw [h2 a hl]
        obtain ⟨t', ht', hs⟩ := ha
        rcases List.mem_cons.1 ht' with rfl | hm
        · exact hv _ (by simp) _ _ hs
        · exact absurd hs (hl t' hm)
    · rw [h2 a (fun t' ht' => ha t' (List.mem_cons_of_mem _ ht')), ho t (by simp) mem a (ha t (by simp))]

/-- A loop of blocks of writes that do not read the memory. -/
theorem foldl_writes {α ι : Type*} (g : ι → List (ℕ × α)) : ∀ (l : List ι) (mem : ℕ → α),
    l.foldl (fun m t => writes (g t) m) mem = writes (l.flatMap g) mem := by
  intro l
  induction l with
  | nil => intro mem; rfl
  | cons t l ih => intro mem; rw [List.foldl_cons, ih, List.flatMap_cons, writes_append]

theorem nodup_loop2 (n m : ℕ) : (loop2 n m).Nodup := by
  rw [loop2, List.nodup_flatMap]
  refine ⟨fun i _ => (List.nodup_range).map (fun a b h => by simpa using h), ?_⟩
  refine List.nodup_range.imp (fun {a b} hab => ?_)
  rw [Function.onFun, List.disjoint_left]
  rintro ⟨x, y⟩ h1 h2
  simp only [List.mem_map, Prod.mk.injEq] at h1 h2
  obtain ⟨_, _, rfl, _⟩ := h1
  obtain ⟨_, _, rfl, _⟩ := h2
  exact hab rfl

end Mpb

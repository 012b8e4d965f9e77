import Verif.Davidson.Model
import Verif.Eig.Props

/-!
# Lemmas about one iteration of the Davidson eigensolver
-/

namespace Mpb.Davidson

open Matrix Mpb.Solver Mpb.Eig

open scoped ComplexOrder

variable {N p : ℕ}

/-! ## Flat matrices -/

/-- The matrix in a flat array. -/
def mat (q : ℕ) (d : ℕ → ℂ) : Matrix (Fin q) (Fin q) ℂ := fun i j => d (i * q + j)

theorem divmod {q x y : ℕ} (hy : y < q) : (x * q + y) / q = x ∧ (x * q + y) % q = y := by
  have hq : 0 < q := by omega
  constructor
  · rw [Nat.mul_comm, Nat.mul_add_div hq, Nat.div_eq_of_lt hy, Nat.add_zero]
  · rw [Nat.mul_comm, Nat.mul_add_mod, Nat.mod_eq_of_lt hy]

theorem resize_spec {op q : ℕ} (h : op ≤ q) (junk d : ℕ → ℂ) {x y : ℕ} (hx : x < op) (hy : y < op) :
    resize op q junk d (x * q + y) = d (x * op + y) := by
  obtain ⟨h1, h2⟩ := divmod (x := x) (show y < q by omega)
  unfold resize
  rw [h1, h2, if_pos ⟨hx, hy⟩]

/-- What `xtySub` does to the entries, at the offset the code uses. -/
theorem xtySub_spec (hp : 0 < p) {q ib i : ℕ} (hq : q = p * (ib + 1)) (hi : i ≤ ib) (X Y : M N p) (d : ℕ → ℂ) :
    ∃ d', xtySub q (p * (q * i + ib)) X Y d = some d' ∧ ∀ x y, x < q → y < q →
      d' (x * q + y) = if x / p = i ∧ y / p = ib then (Xᴴ * Y) ⟨x % p, Nat.mod_lt _ hp⟩ ⟨y % p, Nat.mod_lt _ hp⟩ else d (x * q + y) := by
  have hpq : p ≤ q := by rw [hq]; exact Nat.le_mul_of_pos_right _ (by omega)
  have hoff : p * (q * i + ib) = p * i * q + p * ib := by ring
  have hqi : q = p * ib + p := by rw [hq]; ring
  have hiq : p * i + p ≤ q := by rw [hqi]; exact Nat.add_le_add_right (Nat.mul_le_mul_left _ hi) _
  have hchk : p ≤ q ∧ p * (q * i + ib) + (p - 1) * q + p ≤ q * q := by
    refine ⟨hpq, ?_⟩
    obtain ⟨p', rfl⟩ : ∃ p', p = p' + 1 := ⟨p - 1, by omega⟩
    calc (p' + 1) * (q * i + ib) + (p' + 1 - 1) * q + (p' + 1) = ((p' + 1) * i + p') * q + ((p' + 1) * ib + (p' + 1)) := by
            simp only [Nat.add_sub_cancel]; ring
      _ = ((p' + 1) * i + (p' + 1)) * q := by rw [← hqi]; ring
      _ ≤ q * q := Nat.mul_le_mul_right _ hiq
  refine ⟨_, if_pos hchk, ?_⟩
  intro x y hx hy
  rw [hoff]
  by_cases hb : x / p = i ∧ y / p = ib
  · rw [if_pos hb]
    obtain ⟨rfl, rfl⟩ := hb
    have ex := Nat.div_add_mod x p
    have ey := Nat.div_add_mod y p
    have mx := Nat.mod_lt x hp
    have my := Nat.mod_lt y hp
    have e : x * q + y - (p * (x / p) * q + p * (y / p)) = x % p * q + y % p := by
      have : x * q + y = p * (x / p) * q + p * (y / p) + (x % p * q + y % p) := by
        conv_lhs => rw [← ex, ← ey]
        ring
      omega
    have hle : p * (x / p) * q + p * (y / p) ≤ x * q + y := by
      have h1 : p * (x / p) * q ≤ x * q := Nat.mul_le_mul_right _ (Nat.mul_div_le x p)
      have h2 := Nat.mul_div_le y p
      omega
    obtain ⟨d1, d2⟩ := divmod (q := q) (x := x % p) (y := y % p) (by omega)
    have hcond : p * (x / p) * q + p * (y / p) ≤ x * q + y ∧ (x * q + y - (p * (x / p) * q + p * (y / p))) / q < p ∧
        (x * q + y - (p * (x / p) * q + p * (y / p))) % q < p := by
      rw [e, d1, d2]; exact ⟨hle, mx, my⟩
    rw [dif_pos hcond]
    exact congrArg₂ (Xᴴ * Y) (Fin.ext (by show (_ : ℕ) / q = _; rw [e, d1])) (Fin.ext (by show (_ : ℕ) % q = _; rw [e, d2]))
  · rw [if_neg hb]
    refine dif_neg ?_
    rintro ⟨h1, h2, h3⟩
    apply hb
    -- the row
    have hxi : p * i ≤ x := by
      by_contra hlt
      have : (x + 1) * q ≤ p * i * q := Nat.mul_le_mul_right _ (by omega)
      have : (x + 1) * q = x * q + q := by ring
      omega
    obtain ⟨u, rfl⟩ := Nat.exists_eq_add_of_le hxi
    have eu : (p * i + u) * q = p * i * q + u * q := by ring
    rw [eu] at h1 h2 h3
    by_cases hyb : p * ib ≤ y
    · obtain ⟨v, rfl⟩ := Nat.exists_eq_add_of_le hyb
      have hv : v < p := by omega
      have e : p * i * q + u * q + (p * ib + v) - (p * i * q + p * ib) = u * q + v := by omega
      obtain ⟨d1, d2⟩ := divmod (q := q) (x := u) (y := v) (by omega)
      rw [e, d1] at h2
      constructor
      · rw [Nat.mul_add_div hp, Nat.div_eq_of_lt h2, Nat.add_zero]
      · rw [Nat.mul_add_div hp, Nat.div_eq_of_lt hv, Nat.add_zero]
    · exfalso
      have hu : 0 < u := by
        rcases Nat.eq_zero_or_pos u with rfl | h
        · omega
        · exact h
      obtain ⟨u', rfl⟩ : ∃ u', u = u' + 1 := ⟨u - 1, by omega⟩
      have e : p * i * q + (u' + 1) * q + y - (p * i * q + p * ib) = u' * q + (p + y) := by
        have : (u' + 1) * q = u' * q + q := by ring
        omega
      obtain ⟨d1, d2⟩ := divmod (q := q) (x := u') (y := p + y) (by omega)
      rw [e, d2] at h3
      omega

/-- The entries of `Vᴴ A V`, for the sequence of all columns. -/
def gram (hp : 0 < p) (A : Matrix (Fin N) (Fin N) ℂ) (V : ℕ → M N p) (x y : ℕ) : ℂ :=
  ((V (x / p))ᴴ * (A * V (y / p))) ⟨x % p, Nat.mod_lt _ hp⟩ ⟨y % p, Nat.mod_lt _ hp⟩

theorem newBlocks_spec (hp : 0 < p) {q ib : ℕ} (hq : q = p * (ib + 1)) (A : Matrix (Fin N) (Fin N) ℂ) (V : ℕ → M N p) (d : ℕ → ℂ) :
    ∀ n, n ≤ ib + 1 → ∃ d', newBlocks q ib V (A * V ib) n d = some d' ∧ ∀ x y, x < q → y < q →
      d' (x * q + y) = if x / p < n ∧ y / p = ib then gram hp A V x y else d (x * q + y) := by
  intro n
  induction n with
  | zero => intro _; exact ⟨d, rfl, fun x y _ _ => by simp⟩
  | succ n ih =>
    intro hn
    obtain ⟨d1, e1, h1⟩ := ih (by omega)
    obtain ⟨d2, e2, h2⟩ := xtySub_spec hp hq (show n ≤ ib by omega) (V n) (A * V ib) d1
    refine ⟨d2, ?_, ?_⟩
    · simp only [newBlocks, e1, Option.bind_some, e2]
    · intro x y hx hy
      rw [h2 x y hx hy]
      by_cases hxn : x / p = n ∧ y / p = ib
      · rw [if_pos hxn, if_pos ⟨by omega, hxn.2⟩, gram, hxn.1, hxn.2]
      · rw [if_neg hxn, h1 x y hx hy]
        by_cases hc : x / p < n ∧ y / p = ib
        · rw [if_pos hc, if_pos ⟨by omega, hc.2⟩]
        · rw [if_neg hc, if_neg (fun h => ?_)]
          rcases Nat.lt_succ_iff_lt_or_eq.1 h.1 with h' | h'
          · exact hc ⟨h', h.2⟩
          · exact hxn ⟨h', h.2⟩

/-! ## The basis as one matrix -/

/-- The columns of `W 0`, `W 1`, ... side by side. -/
def stack (hp : 0 < p) (W : ℕ → M N p) (q : ℕ) : Matrix (Fin N) (Fin q) ℂ := fun n c => W (c / p) n ⟨c % p, Nat.mod_lt _ hp⟩

theorem sum_blocks (hp : 0 < p) {q n : ℕ} (hq : q = p * n) (f : ℕ → Fin p → ℂ) :
    ∑ c : Fin q, f (c / p) ⟨c % p, Nat.mod_lt _ hp⟩ = ∑ i ∈ Finset.range n, ∑ j, f i j := by
  rw [Finset.sum_range, ← Fintype.sum_prod_type' (fun (i : Fin n) j => f i j)]
  let e : Fin n × Fin p ≃ Fin q := finProdFinEquiv.trans (finCongr (by rw [hq, Nat.mul_comm]))
  rw [← Equiv.sum_comp e]
  refine Finset.sum_congr rfl ?_
  rintro ⟨i, j⟩ _
  have hv : ((e (i, j) : Fin q) : ℕ) = j + p * i := rfl
  have h1 : ((e (i, j) : Fin q) : ℕ) / p = i := by
    rw [hv, Nat.add_mul_div_left _ _ hp, Nat.div_eq_of_lt j.2, Nat.zero_add]
  have h2 : ((e (i, j) : Fin q) : ℕ) % p = j := by
    rw [hv, Nat.add_mul_mod_self_left, Nat.mod_eq_of_lt j.2]
  have h3 : (⟨((e (i, j) : Fin q) : ℕ) % p, Nat.mod_lt _ hp⟩ : Fin p) = j := Fin.ext h2
  rw [h1, h3]

/-- A combination of blocks of columns. -/
theorem sum_mul (hp : 0 < p) {q n : ℕ} (hq : q = p * n) (W : ℕ → M N p) (B : ℕ → Sq p) :
    ∑ i ∈ Finset.range n, W i * B i = stack hp W q * Matrix.of (fun (c : Fin q) r => B (c / p) ⟨c % p, Nat.mod_lt _ hp⟩ r) := by
  ext m r
  rw [Matrix.sum_apply, Matrix.mul_apply]
  have := sum_blocks hp hq (fun i j => W i m j * B i j r)
  simp only [Matrix.mul_apply]
  rw [← this]
  rfl

theorem mul_stack (hp : 0 < p) (A : Matrix (Fin N) (Fin N) ℂ) (W : ℕ → M N p) (q : ℕ) : A * stack hp W q = stack hp (fun i => A * W i) q := by
  ext m c
  rfl

theorem stack_congr (hp : 0 < p) {W W' : ℕ → M N p} {q n : ℕ} (hq : q = p * n) (h : ∀ i < n, W i = W' i) : stack hp W q = stack hp W' q := by
  ext m c
  have : (c : ℕ) / p < n := by
    rw [Nat.div_lt_iff_lt_mul hp, Nat.mul_comm, ← hq]; exact c.2
  unfold stack
  rw [h _ this]

theorem stack_gram (hp : 0 < p) (A : Matrix (Fin N) (Fin N) ℂ) (W : ℕ → M N p) (q : ℕ) (x y : Fin q) :
    ((stack hp W q)ᴴ * (A * stack hp W q)) x y = gram hp A W x y := by
  rw [mul_stack]
  rfl

theorem stack_orthonormal (hp : 0 < p) {W : ℕ → M N p} {q n : ℕ} (hq : q = p * n)
    (h : ∀ i < n, ∀ j < n, (W i)ᴴ * W j = if i = j then 1 else 0) : (stack hp W q)ᴴ * stack hp W q = 1 := by
  ext x y
  have hlt : ∀ c : Fin q, (c : ℕ) / p < n := fun c => by rw [Nat.div_lt_iff_lt_mul hp, Nat.mul_comm, ← hq]; exact c.2
  have e : ((stack hp W q)ᴴ * stack hp W q) x y = ((W (x / p))ᴴ * W (y / p)) ⟨x % p, Nat.mod_lt _ hp⟩ ⟨y % p, Nat.mod_lt _ hp⟩ := rfl
  rw [e, h _ (hlt x) _ (hlt y), Matrix.one_apply]
  by_cases hxy : (x : ℕ) / p = y / p
  · rw [if_pos hxy, Matrix.one_apply]
    refine if_congr ?_ rfl rfl
    rw [Fin.ext_iff, Fin.ext_iff]
    simp only
    constructor
    · intro hm
      rw [← Nat.div_add_mod (x : ℕ) p, ← Nat.div_add_mod (y : ℕ) p, hxy, hm]
    · intro hm; rw [hm]
  · rw [if_neg hxy, if_neg (fun h => hxy (by rw [h])), Matrix.zero_apply]

/-! ## The window -/

theorem windowFrom_spec (t : ℝ) {q : ℕ} (ev : ℕ → ℝ) : ∀ (f i : ℕ), i + p ≤ q → q ≤ i + f + p →
    let k := windowFrom t p q ev f i
    i ≤ k ∧ k + p ≤ q ∧ (k + p < q → |t - ev k| ≤ |t - ev (k + p)|) ∧ ∀ j, i ≤ j → j < k → |t - ev j| > |t - ev (j + p)| := by
  intro f
  induction f with
  | zero => intro i h h'; exact ⟨le_refl _, h, fun hk => by simp only [windowFrom] at hk; omega, fun j h1 h2 => by simp only [windowFrom] at h2; omega⟩
  | succ f ih =>
    intro i h h'
    simp only [windowFrom]
    by_cases hc : i + p < q ∧ |t - ev i| > |t - ev (i + p)|
    · simp only [if_pos hc]
      obtain ⟨a1, a2, a3, a4⟩ := ih (i + 1) (by omega) (by omega)
      refine ⟨by omega, a2, a3, fun j h1 h2 => ?_⟩
      rcases Nat.eq_or_lt_of_le h1 with rfl | hlt
      · exact hc.2
      · exact a4 j hlt h2
    · simp only [if_neg hc]
      refine ⟨le_refl _, h, fun hk => ?_, fun j h1 h2 => by omega⟩
      by_contra hlt
      exact hc ⟨hk, not_le.1 hlt⟩

theorem itarget_le (t : ℝ) {q : ℕ} (ev : ℕ → ℝ) (h : p ≤ q) : itarget t p q ev + p ≤ q := by
  unfold itarget
  split_ifs
  · omega
  · exact (windowFrom_spec t ev q 0 (by omega) (by omega)).2.1

/-! ## Combinations with blocks of eigenvectors -/

theorem combine_spec (hp : 0 < p) {q it m : ℕ} (hit : it + p ≤ q) (hq : q = p * m) (S : ℕ → ℂ) (W : ℕ → M N p) (X : M N p) :
    ∀ n, n ≤ m → ∃ Z, combine q it S W n X = some Z ∧ (0 < n → Z = ∑ i ∈ Finset.range n, W i * (block q (it * q + p * i) S)ᴴ) := by
  intro n
  induction n with
  | zero => intro _; exact ⟨X, rfl, by simp⟩
  | succ n ih =>
    intro hn
    obtain ⟨Z, e, h⟩ := ih (by omega)
    have hpn : p * n + p ≤ q := by
      rw [hq]
      calc p * n + p = p * (n + 1) := by ring
        _ ≤ p * m := Nat.mul_le_mul_left _ hn
    have hchk : p ≤ q ∧ it * q + p * n + (p - 1) * q + p ≤ q * q := by
      refine ⟨by omega, ?_⟩
      obtain ⟨p', rfl⟩ : ∃ p', p = p' + 1 := ⟨p - 1, by omega⟩
      calc it * q + (p' + 1) * n + (p' + 1 - 1) * q + (p' + 1) = (it + p') * q + ((p' + 1) * n + (p' + 1)) := by
              simp only [Nat.add_sub_cancel]; ring
        _ ≤ (it + p') * q + q := by omega
        _ = (it + (p' + 1)) * q := by ring
        _ ≤ q * q := Nat.mul_le_mul_right _ hit
    refine ⟨_, ?_, fun _ => rfl⟩
    simp only [combine, e, Option.bind_some, addBlock]
    rw [if_pos hchk, Finset.sum_range_succ]
    rcases Nat.eq_zero_or_pos n with rfl | hn0
    · simp
    · rw [h hn0, if_neg (by omega), one_smul]

/-- The rows of the flat matrix from `it` on. -/
def rows (p q it : ℕ) (S : ℕ → ℂ) : Matrix (Fin p) (Fin q) ℂ := fun r c => S ((it + r) * q + c)

theorem combine_eq (hp : 0 < p) {q it m : ℕ} (hm : 0 < m) (hit : it + p ≤ q) (hq : q = p * m) (S : ℕ → ℂ) (W : ℕ → M N p) (X : M N p) :
    combine q it S W m X = some (stack hp W q * (rows p q it S)ᴴ) := by
  obtain ⟨Z, e, h⟩ := combine_spec hp hit hq S W X m (le_refl _)
  rw [e, h hm, sum_mul hp hq]
  congr 2
  ext c r
  simp only [block, rows, conjTranspose_apply, Matrix.of_apply]
  congr 2
  have := Nat.div_add_mod (c : ℕ) p
  calc it * q + p * (c / p) + r * q + c % p = (it + r) * q + (p * (c / p) + c % p) := by ring
    _ = _ := by rw [this]

end Mpb.Davidson

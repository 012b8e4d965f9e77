import Verif.MpbData.Model
import Verif.Core.Interp
import Mathlib.Analysis.SpecialFunctions.Trigonometric.Basic
import Mathlib.Tactic.FieldSimp
import Mathlib.Tactic.LinearCombination
import Mathlib.Tactic.Positivity

/-! # Lemmas for `utils/mpb-data.c` -/

namespace Mpb.MpbData
open Spec

theorem modfPositive_eq (x : ℝ) : modfPositive x = (Int.fract x, ⌊x⌋) := by
  unfold modfPositive trunc
  by_cases hx : 0 ≤ x
  · simp only [if_pos hx]
    rw [if_neg]
    · rfl
    · have := Int.fract_nonneg x
      unfold Int.fract at this
      linarith
  · simp only [if_neg hx]
    have h1 := Int.le_ceil x
    have h2 := Int.ceil_lt_add_one x
    by_cases h : x - (⌈x⌉ : ℝ) < 0
    · have hf : ⌊x⌋ = ⌈x⌉ - 1 := by
        rw [Int.floor_eq_iff]
        push_cast
        constructor <;> linarith
      rw [if_pos h, if_neg (by linarith)]
      ext
      · simp only [Int.fract, hf]; push_cast; ring
      · simp only [hf]
    · have e : x = (⌈x⌉ : ℝ) := by linarith
      have hf : ⌊x⌋ = ⌈x⌉ := by rw [e]; simp
      rw [if_neg h]
      ext
      · simp only [Int.fract, hf]
      · simp only [hf]

theorem trunc_nonneg {x : ℝ} (h : 0 ≤ x) : trunc x = ⌊x⌋ := by simp [trunc, h]

/-- What the code computes for one direction, in terms of the grid coordinate `x n`. -/
theorem axis_eq {n : ℕ} (hn : 0 < n) (nearest : Bool) (x : ℝ) :
    axis nearest n x = ⟨⌊x * n⌋ % n, (⌊x * n⌋ + 1) % n, ⌊x * n⌋ / n, (⌊x * n⌋ + 1) / n,
      if nearest then (if Int.fract (x * n) ≤ 1 / 2 then 0 else 1) else Int.fract (x * n)⟩ := by
  have hn' : (0 : ℝ) < n := by exact_mod_cast hn
  have h0 := Int.fract_nonneg x
  have h1 := Int.fract_lt_one x
  have hm0 : 0 ≤ Int.fract x * n := mul_nonneg h0 hn'.le
  have hm1 : Int.fract x * n < n := by nlinarith
  have hi0 : 0 ≤ ⌊Int.fract x * n⌋ := Int.floor_nonneg.2 hm0
  have hi1 : ⌊Int.fract x * n⌋ < n := by
    rw [Int.floor_lt]; exact_mod_cast hm1
  have hxn : x * n = Int.fract x * n + ((⌊x⌋ * n : ℤ) : ℝ) := by
    have := Int.fract_add_floor x
    push_cast
    linear_combination (-(n : ℝ)) * this
  have hfl : ⌊x * n⌋ = ⌊Int.fract x * n⌋ + ⌊x⌋ * n := by
    rw [hxn, Int.floor_add_intCast]
  have hfr : Int.fract (x * n) = Int.fract x * n - ⌊Int.fract x * n⌋ := by
    rw [hxn, Int.fract_add_intCast]; rfl
  have hd : 0 ≤ Int.fract x * n - ⌊Int.fract x * n⌋ := by
    have := Int.fract_nonneg (Int.fract x * n)
    exact this
  have hnz : (n : ℤ) ≠ 0 := by exact_mod_cast hn.ne'
  have e1 : ⌊x * n⌋ % n = ⌊Int.fract x * n⌋ := by
    rw [hfl, Int.add_mul_emod_self_right, Int.emod_eq_of_lt hi0 hi1]
  have e2 : ⌊x * n⌋ / n = ⌊x⌋ := by
    rw [hfl, Int.add_mul_ediv_right _ _ hnz, Int.ediv_eq_zero_of_lt hi0 hi1, zero_add]
  have e3 : (⌊x * n⌋ + 1) % n = if ⌊Int.fract x * n⌋ + 1 ≥ n then ⌊Int.fract x * n⌋ + 1 - n else ⌊Int.fract x * n⌋ + 1 := by
    have : ⌊x * n⌋ + 1 = ⌊Int.fract x * n⌋ + 1 + ⌊x⌋ * n := by rw [hfl]; ring
    rw [this, Int.add_mul_emod_self_right]
    split_ifs with h
    · have h2 : ⌊Int.fract x * n⌋ + 1 = n := by omega
      rw [h2]; simp
    · exact Int.emod_eq_of_lt (by omega) (by omega)
  have e4 : (⌊x * n⌋ + 1) / n = if ⌊Int.fract x * n⌋ + 1 ≥ n then ⌊x⌋ + 1 else ⌊x⌋ := by
    have : ⌊x * n⌋ + 1 = ⌊Int.fract x * n⌋ + 1 + ⌊x⌋ * n := by rw [hfl]; ring
    rw [this, Int.add_mul_ediv_right _ _ hnz]
    split_ifs with h
    · have h2 : ⌊Int.fract x * n⌋ + 1 = n := by omega
      rw [h2, Int.ediv_self hnz]; ring
    · rw [Int.ediv_eq_zero_of_lt (by omega) (by omega), zero_add]
  rw [e1, e2, e3, e4, hfr]
  unfold axis
  rw [modfPositive_eq]
  simp only [trunc_nonneg hm0, adjPoint, if_pos hd]
  cases nearest <;> split_ifs <;> simp_all

/-- The cache holds the cosine and sine of the phase it is labelled with. -/
def Cache.Ok (c : Cache) : Prop := c.pre = Real.cos c.phase ∧ c.pim = Real.sin c.phase

theorem lookup_ok {c : Cache} (h : c.Ok) (p : ℝ) : (lookup c p).Ok ∧ (lookup c p).phase = p := by
  unfold lookup
  split_ifs with hp
  · exact ⟨⟨rfl, rfl⟩, rfl⟩
  · push Not at hp
    exact ⟨h, hp.symm⟩

theorem addTimesPhase_eq {c : Cache} (h : c.Ok) (sum d : ℂ) (ix iy iz : ℤ) (s : V3 ℝ) (w : ℝ) :
    (addTimesPhase c sum d ix iy iz s w).1 =
      sum + (w : ℂ) * (d * Complex.exp (((ix * s.x + iy * s.y + iz * s.z : ℝ) : ℂ) * Complex.I)) ∧
    (addTimesPhase c sum d ix iy iz s w).2.Ok := by
  obtain ⟨⟨h1, h2⟩, h3⟩ := lookup_ok h (ix * s.x + iy * s.y + iz * s.z)
  refine ⟨?_, ⟨h1, h2⟩⟩
  rw [h3] at h1 h2
  rw [Complex.exp_mul_I, ← Complex.ofReal_cos, ← Complex.ofReal_sin]
  unfold addTimesPhase
  simp only [h1, h2]
  apply Complex.ext
  · simp [-Complex.ofReal_cos, -Complex.ofReal_sin]; ring
  · simp [-Complex.ofReal_cos, -Complex.ofReal_sin]; ring

/-- The grid coordinate of the neighbour `e`. -/
def cnr (f : ℤ) (e : Bool) : ℤ := if e then f + 1 else f

theorem axis_idx {n : ℕ} (hn : 0 < n) (nearest : Bool) (x : ℝ) (e : Bool) :
    (axis nearest n x).idx e = cnr ⌊x * n⌋ e % n := by
  rw [axis_eq hn]; cases e <;> rfl

theorem axis_cell {n : ℕ} (hn : 0 < n) (nearest : Bool) (x : ℝ) (e : Bool) :
    (axis nearest n x).cell e = cnr ⌊x * n⌋ e / n := by
  rw [axis_eq hn]; cases e <;> rfl

theorem axis_dx {n : ℕ} (hn : 0 < n) (nearest : Bool) (x : ℝ) :
    (axis nearest n x).dx = if nearest then (if Int.fract (x * n) ≤ 1 / 2 then 0 else 1) else Int.fract (x * n) := by
  rw [axis_eq hn]

theorem rd_in {α : Type} {d : List α} {n0 n1 n2 : ℕ} (hd : d.length = n0 * n1 * n2) (h0 : 0 < n0) (h1 : 0 < n1)
    (h2 : 0 < n2) (i j k : ℤ) :
    ∃ v, rd d ((i % n0 * n1 + j % n1) * n2 + k % n2) = some v ∧
      d[((i % n0).toNat * n1 + (j % n1).toNat) * n2 + (k % n2).toNat]? = some v := by
  obtain ⟨a, ha⟩ : ∃ a : ℕ, i % n0 = a := ⟨(i % n0).toNat, by have := Int.emod_nonneg i (b := n0) (by omega); omega⟩
  obtain ⟨b, hb⟩ : ∃ b : ℕ, j % n1 = b := ⟨(j % n1).toNat, by have := Int.emod_nonneg j (b := n1) (by omega); omega⟩
  obtain ⟨c, hc⟩ : ∃ c : ℕ, k % n2 = c := ⟨(k % n2).toNat, by have := Int.emod_nonneg k (b := n2) (by omega); omega⟩
  have ha' : a < n0 := by have := Int.emod_lt_of_pos i (b := n0) (by omega); omega
  have hb' : b < n1 := by have := Int.emod_lt_of_pos j (b := n1) (by omega); omega
  have hc' : c < n2 := by have := Int.emod_lt_of_pos k (b := n2) (by omega); omega
  have hlt : (a * n1 + b) * n2 + c < d.length := by
    rw [hd]; exact rowMajor_lt (rowMajor_lt ha' hb') hc'
  have he : (i % n0 * n1 + j % n1) * n2 + k % n2 = (((a * n1 + b) * n2 + c : ℕ) : ℤ) := by
    rw [ha, hb, hc]; push_cast; ring
  refine ⟨d[(a * n1 + b) * n2 + c], ?_, ?_⟩
  · unfold rd
    rw [he, if_pos (by omega), Int.toNat_natCast, List.getElem?_eq_getElem hlt]
  · simp only [ha, hb, hc, Int.toNat_natCast]
    exact List.getElem?_eq_getElem hlt

/-- Nearest-point sampling as a sum with weights 0 and 1. -/
theorem trinear_eq {E : Type*} [AddCommGroup E] [Module ℝ E] (g : ℤ → ℤ → ℤ → E) (u v w : ℝ) :
    trinear g u v w =
      (let a : ℝ := if Int.fract u ≤ 1 / 2 then 0 else 1
       let b : ℝ := if Int.fract v ≤ 1 / 2 then 0 else 1
       let c : ℝ := if Int.fract w ≤ 1 / 2 then 0 else 1
      ((1 - a) * (1 - b) * (1 - c)) • g ⌊u⌋ ⌊v⌋ ⌊w⌋ +
      ((1 - a) * (1 - b) * c) • g ⌊u⌋ ⌊v⌋ (⌊w⌋ + 1) +
      ((1 - a) * b * (1 - c)) • g ⌊u⌋ (⌊v⌋ + 1) ⌊w⌋ +
      ((1 - a) * b * c) • g ⌊u⌋ (⌊v⌋ + 1) (⌊w⌋ + 1) +
      (a * (1 - b) * (1 - c)) • g (⌊u⌋ + 1) ⌊v⌋ ⌊w⌋ +
      (a * (1 - b) * c) • g (⌊u⌋ + 1) ⌊v⌋ (⌊w⌋ + 1) +
      (a * b * (1 - c)) • g (⌊u⌋ + 1) (⌊v⌋ + 1) ⌊w⌋ +
      (a * b * c) • g (⌊u⌋ + 1) (⌊v⌋ + 1) (⌊w⌋ + 1)) := by
  unfold trinear near
  dsimp only
  split_ifs <;> simp

/-- A loop whose iterations write one value each and keep an invariant on the rest of the state. -/
theorem foldlM_writes {α β ι : Type} (I : β → Prop) (addr : ι → ℕ) (val : ι → α)
    (step : (ℕ → α) × β → ι → Option ((ℕ → α) × β)) : ∀ (l : List ι) (mem : ℕ → α) (b : β), I b →
    (∀ t ∈ l, ∀ m b, I b → ∃ b', I b' ∧ step (m, b) t = some (Function.update m (addr t) (val t), b')) →
    ∃ b', I b' ∧ l.foldlM step (mem, b) = some (writes (l.map fun t => (addr t, val t)) mem, b') := by
  intro l
  induction l with
  | nil => intro mem b hb _; exact ⟨b, hb, rfl⟩
  | cons t l ih =>
    intro mem b hb h
    obtain ⟨b', hb', e⟩ := h t (by simp) mem b hb
    obtain ⟨b'', hb'', e'⟩ := ih (Function.update mem (addr t) (val t)) b' hb' (fun t' ht' => h t' (by simp [ht']))
    refine ⟨b'', hb'', ?_⟩
    rw [List.foldlM_cons, e]
    exact e'

theorem foldlM_writes' {α ι : Type} (addr : ι → ℕ) (val : ι → α)
    (step : (ℕ → α) → ι → Option (ℕ → α)) : ∀ (l : List ι) (mem : ℕ → α),
    (∀ t ∈ l, ∀ m, step m t = some (Function.update m (addr t) (val t))) →
    l.foldlM step mem = some (writes (l.map fun t => (addr t, val t)) mem) := by
  intro l
  induction l with
  | nil => intro mem _; rfl
  | cons t l ih =>
    intro mem h
    rw [List.foldlM_cons, h t (by simp) mem]
    exact ih _ (fun t' ht' => h t' (by simp [ht']))

end Mpb.MpbData

import Verif.Names.Model
import Mathlib.Data.Nat.Digits.Lemmas
import Mathlib.Tactic.Linarith
import Mathlib.Tactic.FinCases
import Mathlib.Tactic.IntervalCases

/-! # Property C48: names of output files -/

namespace Mpb.Names

/-! ## Numbers -/

/-- Reading decimal digits. -/
def readDec (s : List Char) : ℕ := s.foldl (fun a c => 10 * a + (c.toNat - 48)) 0

theorem digit_toNat {d : ℕ} (h : d < 10) : (Char.ofNat (48 + d)).toNat = 48 + d := by
  interval_cases d <;> rfl

theorem foldl_read (l : List ℕ) (h : ∀ d ∈ l, d < 10) (a : ℕ) :
    (l.map fun d => Char.ofNat (48 + d)).foldl (fun a c => 10 * a + (c.toNat - 48)) a = l.foldl (fun a d => 10 * a + d) a := by
  induction l generalizing a with
  | nil => rfl
  | cons d l ih =>
    rw [List.map_cons, List.foldl_cons, List.foldl_cons, digit_toNat (h d (by simp)), ih (fun d hd => h d (by simp [hd]))]
    simp

theorem foldl_rev (l : List ℕ) : l.reverse.foldl (fun a d => 10 * a + d) 0 = Nat.ofDigits 10 l := by
  induction l with
  | nil => rfl
  | cons d l ih =>
    rw [List.reverse_cons, List.foldl_append, ih, Nat.ofDigits_cons]
    simp [add_comm]

theorem read_dec (n : ℕ) : readDec (dec n) = n := by
  unfold dec
  by_cases h : n = 0
  · subst h; rfl
  · rw [if_neg h]
    unfold readDec
    rw [foldl_read _ (fun d hd => Nat.digits_lt_base (by norm_num) (List.mem_reverse.1 hd)), foldl_rev, Nat.ofDigits_digits]

theorem read_zero (s : List Char) : readDec ('0' :: s) = readDec s := rfl

theorem dec_digit {n : ℕ} {c : Char} (h : c ∈ dec n) : 48 ≤ c.toNat ∧ c.toNat ≤ 57 := by
  unfold dec at h
  by_cases h0 : n = 0
  · rw [if_pos h0, List.mem_singleton] at h
    subst h
    decide
  · rw [if_neg h0, List.mem_map] at h
    obtain ⟨d, hd, rfl⟩ := h
    have := Nat.digits_lt_base (b := 10) (by norm_num) (List.mem_reverse.1 hd)
    rw [digit_toNat this]
    omega

theorem dec_length {n : ℕ} (h : n < 10 ^ 10) : (dec n).length ≤ 10 := by
  unfold dec
  by_cases h0 : n = 0
  · simp [h0]
  · rw [if_neg h0, List.length_map, List.length_reverse]
    exact (Nat.digits_length_le_iff (by norm_num) n).2 h

theorem dec_no_dash {n : ℕ} {s : List Char} (h : dec n = '-' :: s) : False := by
  have := dec_digit (n := n) (c := '-') (by rw [h]; simp)
  revert this
  decide

theorem fmt02_inj {a b : ℤ} (h : fmt02 a = fmt02 b) : a = b := by
  have key : ∀ z : ℤ, (0 ≤ z → readDec (fmt02 z) = z.natAbs ∧ ∀ s, fmt02 z ≠ '-' :: s) ∧ (z < 0 → fmt02 z = '-' :: dec z.natAbs) := by
    intro z
    refine ⟨fun hz => ?_, fun hz => by unfold fmt02; rw [if_pos hz]⟩
    unfold fmt02
    rw [if_neg (by omega)]
    by_cases h10 : z < 10
    · rw [if_pos h10]
      exact ⟨by rw [read_zero, read_dec], fun s hs => by simp at hs⟩
    · rw [if_neg h10]
      exact ⟨read_dec _, fun s hs => dec_no_dash hs⟩
  rcases lt_or_ge a 0 with ha | ha <;> rcases lt_or_ge b 0 with hb | hb
  · rw [(key a).2 ha, (key b).2 hb, List.cons.injEq] at h
    have := congrArg readDec h.2
    rw [read_dec, read_dec] at this
    omega
  · rw [(key a).2 ha] at h
    exact absurd h.symm (((key b).1 hb).2 _)
  · rw [(key b).2 hb] at h
    exact absurd h (((key a).1 ha).2 _)
  · have := congrArg readDec h
    rw [((key a).1 ha).1, ((key b).1 hb).1] at this
    omega

theorem fmt_no_dot (z : ℤ) : ∀ c ∈ fmt02 z, (c ≠ '.') = true := by
  have hd : ∀ n, ∀ c ∈ dec n, c ≠ '.' := by
    intro n c hc
    have := dec_digit hc
    rintro rfl
    revert this
    decide
  intro c hc
  unfold fmt02 at hc
  simp only [eq_iff_iff, iff_true]
  split_ifs at hc
  · rcases List.mem_cons.1 hc with rfl | hc
    · decide
    · exact hd _ c hc
  · rcases List.mem_cons.1 hc with rfl | hc
    · decide
    · exact hd _ c hc
  · exact hd _ c hc

theorem dec_pos (n : ℕ) : 1 ≤ (dec n).length := by
  unfold dec
  by_cases h0 : n = 0
  · simp [h0]
  · rw [if_neg h0, List.length_map, List.length_reverse]
    have : Nat.digits 10 n ≠ [] := Nat.digits_ne_nil_iff_ne_zero.2 h0
    exact List.length_pos_iff.2 this

/-! ## Cutting a name at its dots -/

/-- A string that is empty or begins with a dot. -/
def Dotted (s : List Char) : Prop := s = [] ∨ ∃ t, s = '.' :: t

theorem take_dot {a s : List Char} (ha : ∀ c ∈ a, c ≠ '.') (hs : Dotted s) : (a ++ s).takeWhile (· ≠ '.') = a ∧ (a ++ s).dropWhile (· ≠ '.') = s := by
  induction a with
  | nil =>
    rcases hs with rfl | ⟨t, rfl⟩ <;> simp
  | cons c a ih =>
    obtain ⟨h1, h2⟩ := ih (fun c hc => ha c (by simp [hc]))
    have := ha c (by simp)
    rw [List.cons_append, List.takeWhile_cons_of_pos (by simpa using this), List.dropWhile_cons_of_pos (by simpa using this), h1, h2]
    exact ⟨rfl, rfl⟩

theorem cut {a b s t : List Char} (ha : ∀ c ∈ a, c ≠ '.') (hb : ∀ c ∈ b, c ≠ '.') (hs : Dotted s) (ht : Dotted t) (h : a ++ s = b ++ t) :
    a = b ∧ s = t := by
  obtain ⟨h1, h2⟩ := take_dot ha hs
  obtain ⟨h3, h4⟩ := take_dot hb ht
  rw [h] at h1 h2
  exact ⟨h1.symm.trans h3, h2.symm.trans h4⟩

/-! ## The names -/

/-- All field types that can be written. -/
def types : List Char := ['d', 'h', 'b', 'e', 'c', 'v', 'C', 'D', 'H', 'B', 'n', 'm', 'R']

/-- The parities after `set_maxwell_data_parity` (no even and odd for the same axis): none, even or odd in z (0, 1, 2) plus none, even or
odd in y (0, 4, 8). -/
def Spec.parities : List ℕ := [0, 1, 2, 4, 5, 6, 8, 9, 10]

/-- The components: all (-1), x, y, z. -/
def Spec.components : List ℤ := [-1, 0, 1, 2]

/-- What is written to a file: the dielectric function and the permeability depend on nothing but the structure; other fields depend on
the k-point, the band and the parity; vector fields also on the component. -/
def Spec.SameContents (t : Char) (k b comp : ℤ) (parity : ℕ) (t' : Char) (k' b' comp' : ℤ) (parity' : ℕ) : Prop :=
  t = t' ∧ (t ≠ 'n' → t ≠ 'm' → k = k' ∧ b = b' ∧ parity = parity' ∧ (t ∈ ['d', 'h', 'b', 'e', 'c', 'v'] → comp = comp'))

def head (t : Char) : List Char :=
  if t = 'n' then "epsilon".toList else if t = 'm' then "mu".toList
  else if t ∈ ['D', 'H', 'B', 'R'] then toLower t :: "pwr".toList else [t]

def tail (vec : Bool) (comp : ℤ) (parity : ℕ) (twoD : Bool) : List Char :=
  (if vec then compStr comp else []) ++ (if parity ≠ 0 then '.' :: parityString parity twoD else [])

theorem outName_eq {t : Char} (ht : t ∈ types) (k b comp : ℤ) (pre : List Char) (parity : ℕ) (twoD : Bool) :
    outName t k b comp pre parity twoD = some (pre ++ (head t ++ if t = 'n' ∨ t = 'm' then [] else
      '.' :: ('k' :: fmt02 k ++ '.' :: ('b' :: fmt02 b ++ tail (t ∈ ['d', 'h', 'b', 'e', 'c', 'v']) comp parity twoD)))) := by
  have : t = 'd' ∨ t = 'h' ∨ t = 'b' ∨ t = 'e' ∨ t = 'c' ∨ t = 'v' ∨ t = 'C' ∨ t = 'D' ∨ t = 'H' ∨ t = 'B' ∨ t = 'n' ∨ t = 'm' ∨ t = 'R' := by
    simpa [types] using ht
  rcases this with rfl | rfl | rfl | rfl | rfl | rfl | rfl | rfl | rfl | rfl | rfl | rfl | rfl <;>
    simp [outName, fname, fixFname, head, tail, kb, toLower, List.append_assoc]

theorem head_no_dot : ∀ t ∈ types, ∀ c ∈ head t, c ≠ '.' := by decide +kernel

theorem head_inj : ∀ t ∈ types, ∀ t' ∈ types, head t = head t' → t = t' := by decide +kernel

theorem tail_dotted (vec : Bool) (comp : ℤ) (parity : ℕ) (twoD : Bool) : Dotted (tail vec comp parity twoD) := by
  unfold tail compStr
  by_cases h1 : vec = true <;> by_cases h2 : comp ≥ 0 <;> by_cases h3 : parity ≠ 0 <;> simp [h1, h2, h3, Dotted]

theorem tail_inj : ∀ c ∈ Spec.components, ∀ c' ∈ Spec.components, ∀ p ∈ Spec.parities, ∀ p' ∈ Spec.parities, ∀ vec twoD : Bool,
    tail vec c p twoD = tail vec c' p' twoD → p = p' ∧ (vec = true → c = c') := by decide +kernel

/-- C48: two outputs in a session (same prefix, same dimensions) have the same name only if they have the same contents' description:
field, k-point, band, parity and component; all indices are arbitrary integers.  Partial: the band in the name is that of the field last
obtained from the solver, so this says nothing of fields loaded from variables (`C48_loaded_refuted`). -/
theorem C48_distinct_partial {t t' : Char} (ht : t ∈ types) (ht' : t' ∈ types) (k b k' b' comp comp' : ℤ) (hc : comp ∈ Spec.components)
    (hc' : comp' ∈ Spec.components) (parity parity' : ℕ) (hp : parity ∈ Spec.parities) (hp' : parity' ∈ Spec.parities) (pre : List Char) (twoD : Bool)
    (h : outName t k b comp pre parity twoD = outName t' k' b' comp' pre parity' twoD) :
    Spec.SameContents t k b comp parity t' k' b' comp' parity' := by
  rw [outName_eq ht, outName_eq ht', Option.some.injEq, List.append_cancel_left_eq] at h
  have dd : ∀ (q : Prop) [Decidable q] (s : List Char), Dotted (if q then [] else '.' :: s) := by
    intro q _ s
    split_ifs
    · exact .inl rfl
    · exact .inr ⟨s, rfl⟩
  obtain ⟨h1, h2⟩ := cut (head_no_dot t ht) (head_no_dot t' ht') (dd _ _) (dd _ _) h
  obtain rfl := head_inj t ht t' ht' h1
  refine ⟨rfl, fun hn hm => ?_⟩
  rw [if_neg (by simp [hn, hm]), if_neg (by simp [hn, hm]), List.cons.injEq] at h2
  have nk : ∀ (x : Char) (z : ℤ), x ≠ '.' → ∀ c ∈ x :: fmt02 z, c ≠ '.' := by
    intro x z hx c hc
    rcases List.mem_cons.1 hc with rfl | hc
    · exact hx
    · simpa using fmt_no_dot z c hc
  obtain ⟨h3, h4⟩ := cut (nk 'k' k (by decide)) (nk 'k' k' (by decide)) (.inr ⟨_, rfl⟩) (.inr ⟨_, rfl⟩) h2.2
  rw [List.cons.injEq] at h3 h4
  obtain ⟨h5, h6⟩ := cut (nk 'b' b (by decide)) (nk 'b' b' (by decide)) (tail_dotted _ _ _ _) (tail_dotted _ _ _ _) h4.2
  rw [List.cons.injEq] at h5
  obtain ⟨h7, h8⟩ := tail_inj comp hc comp' hc' parity hp parity' hp' _ twoD h6
  exact ⟨fmt02_inj h3.2, fmt02_inj h5.2, h7, fun hv => h8 (by simpa using hv)⟩

/-- Non-vacuity: two outputs with different names. -/
example : outName 'd' 1 12 0 [] 1 true = some "d.k01.b12.x.te".toList ∧ outName 'D' 1 12 (-1) "run-".toList 6 false = some "run-dpwr.k01.b12.zoddyeven".toList := by
  constructor <;> decide +kernel

/-! ## Buffers -/

theorem parityString_length : ∀ p ∈ Spec.parities, ∀ twoD, (parityString p twoD).length ≤ 10 := by decide +kernel

theorem fmt02_length {z : ℤ} (h : -2147483648 ≤ z ∧ z ≤ 2147483647) : (fmt02 z).length ≤ 11 := by
  have := dec_length (n := z.natAbs) (by omega)
  unfold fmt02
  split_ifs <;> (try simp only [List.length_cons]) <;> omega

theorem fmtD_length {z : ℤ} (h : -2147483648 ≤ z ∧ z ≤ 2147483647) : (fmtD z).length ≤ 11 := by
  have := dec_length (n := z.natAbs) (by omega)
  unfold fmtD
  split_ifs <;> (try simp only [List.length_cons]) <;> omega

/-- C48: for every field type, k-point, band (any `int`) and component, the name fits `fname[100]`, with the terminating 0; for every
prefix and parity the full name fits the allocated buffer; and the description fits `description[100]`, if `%g` prints at most 13
characters. -/
theorem C48_buffers {t : Char} (ht : t ∈ types) (k b comp : ℤ) (hk : -2147483648 ≤ k ∧ k ≤ 2147483647) (hb : -2147483648 ≤ b ∧ b ≤ 2147483647)
    (pre : List Char) (parity : ℕ) (hp : parity ∈ Spec.parities) (twoD : Bool) (g : List Char) (hg : g.length ≤ 13) :
    ∃ f s, fname t k b comp = some f ∧ f.length < 100 ∧ outName t k b comp pre parity twoD = some s ∧ s.length < fixFnameSize f pre ∧
      (description t k b g).length < 100 := by
  have h1 := fmt02_length hk
  have h2 := fmt02_length hb
  have h3 := parityString_length parity hp twoD
  have h4 := fmtD_length hk
  have h5 := fmtD_length hb
  have hcs : (compStr comp).length ≤ 2 := by
    unfold compStr
    split_ifs <;> simp
  have hkb : (kb k b).length ≤ 26 := by
    simp only [kb, List.length_append]
    simp
    omega
  have hfix : ∀ (f : List Char) (q : Bool), (fixFname f pre parity twoD q).length < fixFnameSize f pre := by
    intro f q
    unfold fixFname fixFnameSize
    split_ifs <;> simp only [List.length_append, List.length_cons, List.length_nil] <;> omega
  have hdesc : (description t k b g).length < 100 := by
    unfold description
    split_ifs
    · decide
    · decide
    · simp only [List.length_cons, List.length_append]
      simp
      omega
    · simp only [List.length_cons, List.length_append]
      simp
      omega
  have hf : ∃ f, fname t k b comp = some f ∧ f.length < 100 := by
    have : t = 'd' ∨ t = 'h' ∨ t = 'b' ∨ t = 'e' ∨ t = 'c' ∨ t = 'v' ∨ t = 'C' ∨ t = 'D' ∨ t = 'H' ∨ t = 'B' ∨ t = 'n' ∨ t = 'm' ∨ t = 'R' := by
      simpa [types] using ht
    rcases this with rfl | rfl | rfl | rfl | rfl | rfl | rfl | rfl | rfl | rfl | rfl | rfl | rfl <;>
      simp [fname] <;> omega
  obtain ⟨f, e, hl⟩ := hf
  refine ⟨f, fixFname f pre parity twoD (t ≠ 'n' ∧ t ≠ 'm'), e, hl, ?_, hfix f _, hdesc⟩
  unfold outName
  rw [e]
  rfl

/-- Non-vacuity: the hypotheses hold for the smallest `int` and the longest parity suffix. -/
example : ('R' ∈ types) ∧ (10 ∈ Spec.parities) ∧ (fname 'R' (-2147483648) (-2147483648) (-1)).map List.length = some 30 ∧
    (parityString 6 false).length = 9 := by
  refine ⟨by decide, by decide, ?_, by decide +kernel⟩
  decide +kernel

/-! ## What the names and descriptions say -/

/-- The word at the start of a file name, as the manual and the tutorials use it (doc/docs/Data_Analysis_Tutorial.md:241, "dpwr.k06.b*.h5"). -/
def Spec.word (t : Char) : String :=
  if t = 'n' then "epsilon" else if t = 'm' then "mu" else if t = 'D' then "dpwr" else if t = 'H' then "hpwr" else if t = 'B' then "bpwr"
  else if t = 'R' then "rpwr" else String.ofList [t]

/-- C48: the file is called by the documented word, after the prefix; the dielectric function and the permeability have no more in their
names. -/
theorem C48_word {t : Char} (ht : t ∈ types) (k b comp : ℤ) (pre : List Char) (parity : ℕ) (twoD : Bool) :
    ∃ rest, outName t k b comp pre parity twoD = some (pre ++ (Spec.word t).toList ++ rest) ∧ (rest = [] ↔ t = 'n' ∨ t = 'm') ∧
      (rest ≠ [] → rest.take 2 = ['.', 'k']) := by
  have hw : ∀ t ∈ types, head t = (Spec.word t).toList := by decide +kernel
  refine ⟨_, (outName_eq ht k b comp pre parity twoD).trans (by rw [hw t ht, List.append_assoc]), ?_, ?_⟩
  · split_ifs with h <;> simp [h]
  · split_ifs with h <;> simp

theorem cutAt {p : Char} {a b s t : List Char} (ha : p ∉ a) (hb : p ∉ b) (h : a ++ p :: s = b ++ p :: t) : a = b ∧ s = t := by
  induction a generalizing b with
  | nil =>
    cases b with
    | nil => simpa using h
    | cons c b => simp at h hb; exact absurd h.1 hb.1
  | cons c a ih =>
    cases b with
    | nil => simp at h ha; exact absurd h.1.symm ha.1
    | cons c' b =>
      simp only [List.cons_append, List.cons.injEq] at h
      obtain ⟨rfl, h⟩ := h
      simp only [List.mem_cons, not_or] at ha hb
      obtain ⟨rfl, e⟩ := ih ha.2 hb.2 h
      exact ⟨rfl, e⟩

theorem fmtD_no_comma (z : ℤ) : ',' ∉ fmtD z := by
  have hd : ∀ n, ',' ∉ dec n := by
    intro n hc
    have := dec_digit hc
    revert this
    decide
  unfold fmtD
  split_ifs
  · simpa using hd _
  · exact hd _

theorem fmtD_inj {a b : ℤ} (h : fmtD a = fmtD b) : a = b := by
  unfold fmtD at h
  split_ifs at h with ha hb hb
  · have := congrArg readDec (List.cons.inj h).2
    rw [read_dec, read_dec] at this
    omega
  · exact (dec_no_dash h.symm).elim
  · exact (dec_no_dash h).elim
  · have := congrArg readDec h
    rw [read_dec, read_dec] at this
    omega

/-- C48: the description stored in the file tells which field it is, and for a band's field the k-point, the band and the frequency as
printed (`g`). -/
theorem C48_described {t t' : Char} (ht : t ∈ types) (ht' : t' ∈ types) (k b k' b' : ℤ) (g g' : List Char)
    (h : description t k b g = description t' k' b' g') : t = t' ∧ (t ≠ 'n' → t ≠ 'm' → k = k' ∧ b = b' ∧ g = g') := by
  have e : ∀ t ∈ types, ∀ (k b : ℤ) (g : List Char), description t k b g =
      if t = 'n' then "dielectric function, epsilon".toList else if t = 'm' then "permeability mu".toList
      else (t :: if t ∈ ['D', 'H', 'B', 'R'] then " field energy density".toList else " field".toList) ++ ',' :: (" kpoint ".toList ++
        (fmtD k ++ ',' :: (" band ".toList ++ (fmtD b ++ ',' :: (" freq=".toList ++ g))))) := by
    intro t _ k b g
    unfold description
    split_ifs <;> simp
  have hw : ∀ t ∈ types, ∀ t' ∈ types, ∀ x x' : List Char, t ≠ 'n' → t ≠ 'm' →
      (t :: if t ∈ ['D', 'H', 'B', 'R'] then " field energy density".toList else " field".toList) ++ x =
        description t' k' b' g' → t = t' := by
    intro t ht t' ht' x _ hn hm hx
    by_cases h1 : t' = 'n'
    · subst h1
      have h2 := congrArg (·.take 2) hx
      split_ifs at h2 <;> simp [description] at h2
    · by_cases h2 : t' = 'm'
      · subst h2
        have h3 := congrArg (·.take 2) hx
        split_ifs at h3 <;> simp [description] at h3
      · rw [e t' ht', if_neg h1, if_neg h2] at hx
        exact (List.cons.inj hx).1
  rw [e t ht] at h
  by_cases hn : t = 'n'
  · subst hn
    refine ⟨?_, fun h => absurd rfl h⟩
    by_contra hne
    rw [if_pos rfl] at h
    by_cases hm' : t' = 'm'
    · subst hm'; simp [description] at h
    · have h' := h.symm
      rw [e t' ht', if_neg (Ne.symm hne), if_neg hm'] at h'
      exact hne (hw t' ht' 'n' ht _ [] (Ne.symm hne) hm' (h'.trans (by simp [description]))).symm
  by_cases hm : t = 'm'
  · subst hm
    refine ⟨?_, fun _ h => absurd rfl h⟩
    by_contra hne
    rw [if_neg hn, if_pos rfl] at h
    by_cases hn' : t' = 'n'
    · subst hn'; simp [description] at h
    · have h' := h.symm
      rw [e t' ht', if_neg hn', if_neg (Ne.symm hne)] at h'
      exact hne (hw t' ht' 'm' ht _ [] hn' (Ne.symm hne) (h'.trans (by simp [description]))).symm
  rw [if_neg hn, if_neg hm] at h
  obtain rfl := hw t ht t' ht' _ [] hn hm h
  refine ⟨rfl, fun _ _ => ?_⟩
  rw [e t ht, if_neg hn, if_neg hm, List.append_cancel_left_eq, List.cons.injEq, List.append_cancel_left_eq] at h
  obtain ⟨e1, h1⟩ := cutAt (fmtD_no_comma k) (fmtD_no_comma k') h.2
  rw [List.append_cancel_left_eq] at h1
  obtain ⟨e2, h2⟩ := cutAt (fmtD_no_comma b) (fmtD_no_comma b') h1
  rw [List.append_cancel_left_eq] at h2
  exact ⟨fmtD_inj e1, fmtD_inj e2, h2⟩

/-! ## Fields loaded with `field-load` -/

/-- C48: a field loaded from a variable is written under the word of the variable's field, whatever field was current before. -/
theorem C48_loaded_word {F : Type} (c0 c : Cur F) (h0 : c0.type ∈ types) (k comp : ℤ) (pre : List Char) (parity : ℕ) (twoD : Bool) :
    (fieldLoad (copyCur c0) c).data = c0.data ∧ ∃ rest,
      outName (fieldLoad (copyCur c0) c).type k (fieldLoad (copyCur c0) c).band comp pre parity twoD = some (pre ++ (Spec.word c0.type).toList ++ rest) := by
  obtain ⟨rest, h, -⟩ := C48_word h0 k c.band comp pre parity twoD
  exact ⟨rfl, rest, h⟩

/-- Non-vacuity: the energy density of band 3, kept and loaded while the epsilon function is current, goes to a file with the documented
name (with the number of the band that was current last, see `C48_loaded_refuted`). -/
example : outName (fieldLoad (copyCur ⟨'D', 3, ()⟩) ⟨'n', 7, ()⟩).type 6 (fieldLoad (copyCur ⟨'D', 3, ()⟩) ⟨'n', 7, ()⟩).band (-1) "x-".toList 0 true =
    some "x-dpwr.k06.b07".toList := by decide +kernel

/-- C48 fails for fields that were kept in variables: the fields `f1` of band `b1` and `f2` of band `b2`, copied when they were current,
and loaded and written later, are written to the same file, the one with the number of the band that was current last. -/
theorem C48_loaded_refuted {F : Type} (t : Char) (k b1 b2 comp : ℤ) (f1 f2 : F) (pre : List Char) (parity : ℕ) (twoD : Bool) :
    ∃ c1 c2 : Cur F, getField t b1 f1 none = some c1 ∧ getField t b2 f2 (some c1) = some c2 ∧
      (fieldLoad (copyCur c1) c2).data = f1 ∧ (fieldLoad (copyCur c2) (fieldLoad (copyCur c1) c2)).data = f2 ∧
      outName (fieldLoad (copyCur c1) c2).type k (fieldLoad (copyCur c1) c2).band comp pre parity twoD = outName t k b2 comp pre parity twoD ∧
      outName (fieldLoad (copyCur c2) (fieldLoad (copyCur c1) c2)).type k (fieldLoad (copyCur c2) (fieldLoad (copyCur c1) c2)).band comp pre parity
        twoD = outName t k b2 comp pre parity twoD :=
  ⟨_, _, rfl, rfl, rfl, rfl, rfl, rfl⟩

end Mpb.Names

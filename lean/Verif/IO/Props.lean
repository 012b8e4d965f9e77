import Verif.IO.Lemmas
import Mathlib.Analysis.SpecialFunctions.Complex.Circle
import Mathlib.Data.List.Infix

/-!
# C31, C32, C33, C34: writing and reading files
-/

namespace Mpb.IO

/-- `boxIdx d` lists exactly the multi-indices below `d`, entry by entry. -/
theorem mem_boxIdx : ∀ {d idx : List ℕ}, idx ∈ boxIdx d ↔ List.Forall₂ (· < ·) idx d := by
  intro d
  induction d with
  | nil => intro idx; simp [boxIdx]
  | cons d ds ih =>
    intro idx
    simp only [boxIdx, List.mem_flatMap, List.mem_range, List.mem_map, List.forall₂_cons_right_iff]
    constructor
    · rintro ⟨i, hi, is, his, rfl⟩; exact ⟨i, is, hi, ih.1 his, rfl⟩
    · rintro ⟨i, is, hi, his, rfl⟩; exact ⟨i, hi, is, ih.2 his, rfl⟩

/-! ## C31 -/

/-- C31: for every shape of the local block, every position in the dataset and every stride, the elements of the block in the file, in row-major order, become `data[0], data[stride],
data[2*stride], ...`; every other element of the dataset is unchanged; no internal check fails, and the content of the scratch memory plays no role. -/
theorem C31_strided_write (localDims localStart : List ℕ) (stride : ℕ) (data c0 : ℕ → ℝ) (file : Dataset) (hne : localDims ≠ [])
    (hl : localStart.length = localDims.length) (hs : 1 ≤ stride) :
    ∃ f', writeReal localDims localStart stride data c0 file = some f' ∧
      (boxIdx localDims).map (fun idx => f' (addIdx localStart idx)) = (List.range localDims.prod).map (fun i => data (i * stride)) ∧
      (∀ x, (∀ idx ∈ boxIdx localDims, x ≠ addIdx localStart idx) → f' x = file x) := by
  obtain ⟨copy, e1, e2⟩ : ∃ copy, (if stride > 1 then copyStrided data stride localDims.prod c0 else some data) = some copy ∧
      ∀ j < localDims.prod, copy j = data (j * stride) := by
    by_cases h : stride > 1
    · obtain ⟨c, h1, h2⟩ := copyStrided_spec data stride localDims.prod c0
      exact ⟨c, by rw [if_pos h, h1], fun j hj => by rw [h2 j, if_pos hj]⟩
    · exact ⟨data, by rw [if_neg h], fun j _ => by rw [show stride = 1 by omega, mul_one]⟩
  unfold writeReal
  rw [e1]
  simp only [Option.map_some]
  refine ⟨_, rfl, ?_⟩
  by_cases hp : localDims.prod > 0
  · simp only [if_pos hp]
    obtain ⟨h1, h2⟩ := h5write_spec (fstart := localStart) (count := localDims) (memDims := mapLast (· * 1) localDims)
      (memStr := mapLast (fun _ => 1) (localDims.map fun _ => 1)) (mem := copy) (file := file) hl
    refine ⟨?_, h2⟩
    rw [← map_rm_boxIdx, List.map_map]
    refine List.map_congr_left fun idx hi => ?_
    rw [h1 idx hi, rm_strided 1 hne (length_of_mem_boxIdx hi), mul_one]
    refine e2 _ ?_
    have : rm localDims idx ∈ (boxIdx localDims).map (rm localDims) := List.mem_map_of_mem hi
    rw [map_rm_boxIdx] at this
    exact List.mem_range.1 this
  · simp only [if_neg hp]
    have h0 : localDims.prod = 0 := by omega
    have hb : boxIdx localDims = [] := by
      have := map_rm_boxIdx localDims
      rw [h0] at this
      simpa using this
    rw [h0, hb]
    exact ⟨rfl, fun x _ => trivial⟩

/-- The same, element by element. -/
theorem writeReal_apply (localDims localStart : List ℕ) (stride : ℕ) (data c0 : ℕ → ℝ) (file : Dataset) (hne : localDims ≠ [])
    (hl : localStart.length = localDims.length) (hs : 1 ≤ stride) :
    ∃ f', writeReal localDims localStart stride data c0 file = some f' ∧
      (∀ idx ∈ boxIdx localDims, f' (addIdx localStart idx) = data (rm localDims idx * stride)) ∧
      (∀ x, (∀ idx ∈ boxIdx localDims, x ≠ addIdx localStart idx) → f' x = file x) := by
  obtain ⟨f', h1, h2, h3⟩ := C31_strided_write localDims localStart stride data c0 file hne hl hs
  refine ⟨f', h1, fun idx hi => ?_, h3⟩
  rw [← map_rm_boxIdx, List.map_map] at h2
  exact List.map_inj_left.1 h2 idx hi

example : ∃ f', writeReal [2, 3] [5, 0] 4 (fun a => a) (fun _ => 77) (fun _ => -1) = some f' ∧ f' [5, 0] = 0 ∧ f' [5, 1] = 4 ∧ f' [6, 2] = 20 ∧ f' [4, 0] = -1 := by
  obtain ⟨f', h1, h2, h3⟩ := writeReal_apply [2, 3] [5, 0] 4 (fun a => a) (fun _ => 77) (fun _ => -1) (by simp) rfl (by norm_num)
  refine ⟨f', h1, ?_, ?_, ?_, ?_⟩
  · have := h2 [0, 0] (by decide)
    simp [addIdx, rm] at this
    exact this
  · have := h2 [0, 1] (by decide)
    simp [addIdx, rm] at this
    exact this
  · have := h2 [1, 2] (by decide)
    simp [addIdx, rm] at this
    exact this.trans (by norm_num)
  · exact h3 [4, 0] (by decide)

/-! ## C32 -/

/-- The address of component (row `i`, field component `a`, band `b`, real or imaginary part `v`) in a process's array. -/
def addr4 (c p nv i a b v : ℕ) : ℕ := ((i * c + a) * p + b) * nv + v

theorem rm4 (n c p nv i a b v : ℕ) : rm [n, c, p, nv] [i, a, b, v] = addr4 c p nv i a b v := by
  simp only [rm, addr4, List.prod_cons, List.prod_nil]
  ring

theorem mem_box4 {n c p nv i a b v : ℕ} : [i, a, b, v] ∈ boxIdx [n, c, p, nv] ↔ i < n ∧ a < c ∧ b < p ∧ v < nv := by
  rw [mem_boxIdx]; simp

theorem mem_box4' {n c p nv : ℕ} {x : List ℕ} (h : x ∈ boxIdx [n, c, p, nv]) : ∃ i a b v, x = [i, a, b, v] ∧ i < n ∧ a < c ∧ b < p ∧ v < nv := by
  rw [mem_boxIdx] at h
  simp only [List.forall₂_cons_right_iff, List.forall₂_nil_right_iff] at h
  obtain ⟨i, _, hi, ⟨a, _, ha, ⟨b, _, hb, ⟨v, _, hv, rfl, rfl⟩, rfl⟩, rfl⟩, rfl⟩ := h
  exact ⟨i, a, b, v, rfl, hi, ha, hb, hv⟩

/-- The process's rows hold the matrix `G`. -/
def Holds (G : ℕ → ℕ → ℕ → ℕ → ℝ) (c p nv : ℕ) (s : Slab) (data : ℕ → ℝ) : Prop :=
  ∀ i < s.localN, ∀ a < c, ∀ b < p, ∀ v < nv, data (addr4 c p nv i a b v) = G (s.nstart + i) a b v

theorem writeAll_spec (G : ℕ → ℕ → ℕ → ℕ → ℝ) (c p nv : ℕ) (c0 : ℕ → ℝ) : ∀ (ws : List Slab) (f : Dataset), (∀ s ∈ ws, Holds G c p nv s s.data) →
    ∃ f', writeAllProcs c p nv c0 ws f = some f' ∧ ∀ r a b v, a < c → b < p → v < nv →
      (((∃ s ∈ ws, s.nstart ≤ r ∧ r < s.nstart + s.localN) ∨ f [r, a, b, v] = G r a b v) → f' [r, a, b, v] = G r a b v) := by
  intro ws
  induction ws with
  | nil => intro f _; exact ⟨f, rfl, fun r a b v _ _ _ h => by simpa using h⟩
  | cons s ws ih =>
    intro f hh
    obtain ⟨f1, e1, e2, e3⟩ := writeReal_apply [s.localN, c, p, nv] [s.nstart, 0, 0, 0] 1 s.data c0 f (by simp) rfl le_rfl
    obtain ⟨f2, g1, g2⟩ := ih f1 (fun s' hs' => hh s' (List.mem_cons_of_mem _ hs'))
    refine ⟨f2, by rw [writeAllProcs, writeallRaw, e1]; exact g1, fun r a b v ha hb hv h => g2 r a b v ha hb hv ?_⟩
    by_cases hin : s.nstart ≤ r ∧ r < s.nstart + s.localN
    · right
      have := e2 [r - s.nstart, a, b, v] (mem_box4.2 ⟨by omega, ha, hb, hv⟩)
      simp only [addIdx, List.zipWith_cons_cons, List.zipWith_nil_right, rm4, mul_one, zero_add] at this
      rw [show s.nstart + (r - s.nstart) = r by omega] at this
      rw [this, hh s List.mem_cons_self (r - s.nstart) (by omega) a ha b hb v hv]
      congr 1
      omega
    · rcases h with ⟨s', hs', hr⟩ | h
      · rcases List.mem_cons.1 hs' with rfl | hs'
        · exact absurd hr hin
        · exact Or.inl ⟨s', hs', hr⟩
      · right
        rw [e3 _ fun idx hi e => hin ?_, h]
        obtain ⟨i, a', b', v', rfl, hi, -⟩ := mem_box4' hi
        simp only [addIdx, List.zipWith_cons_cons, List.zipWith_nil_right, List.cons.injEq] at e
        omega

/-- C32: eigenvectors written by any number of processes, whose rows cover the matrix, and read by processes with any other distribution of the rows, are restored exactly; the reading process writes no other memory.
`fdims` being what the file says, a file of any other shape is refused. -/
theorem C32_roundtrip (G : ℕ → ℕ → ℕ → ℕ → ℝ) (N c p nv : ℕ) (c0 : ℕ → ℝ) (f : Dataset) (ws : List Slab) (hw : ∀ s ∈ ws, Holds G c p nv s s.data)
    (hcover : ∀ r < N, ∃ s ∈ ws, s.nstart ≤ r ∧ r < s.nstart + s.localN) :
    ∃ f', writeAllProcs c p nv c0 ws f = some f' ∧
      ∀ s : Slab, s.nstart + s.localN ≤ N → ∃ m, readallRaw [N, c, p, nv] N c p nv s f' = some m ∧ Holds G c p nv s m ∧
        (∀ x, s.localN * c * p * nv ≤ x → m x = s.data x) := by
  obtain ⟨f', e1, e2⟩ := writeAll_spec G c p nv c0 ws f hw
  refine ⟨f', e1, fun s hs => ?_⟩
  obtain ⟨h1, h2⟩ := h5read_spec (fstart := [s.nstart, 0, 0, 0]) (count := [s.localN, c, p, nv]) (file := f') (mem := s.data) (s := 1) one_pos (by simp)
  refine ⟨h5read [s.nstart, 0, 0, 0] [s.localN, c, p, nv] (mapLast (· * 1) [s.localN, c, p, nv])
    (mapLast (fun _ => 1) ([s.localN, c, p, nv].map fun _ => 1)) f' s.data, ?_, ?_, ?_⟩
  · unfold readallRaw readReal
    rw [if_pos (by simp), if_pos rfl, if_pos rfl]
    rfl
  · intro i hi a ha b hb v hv
    have := h1 [i, a, b, v] (mem_box4.2 ⟨hi, ha, hb, hv⟩)
    rw [rm4, mul_one] at this
    refine Eq.trans this ?_
    simp only [addIdx, List.zipWith_cons_cons, List.zipWith_nil_right, zero_add]
    exact e2 _ a b v ha hb hv (Or.inl (hcover _ (by omega)))
  · intro x hx
    refine h2 x fun idx hi e => ?_
    have : rm [s.localN, c, p, nv] idx ∈ (boxIdx [s.localN, c, p, nv]).map (rm [s.localN, c, p, nv]) := List.mem_map_of_mem hi
    rw [map_rm_boxIdx] at this
    have := List.mem_range.1 this
    simp only [List.prod_cons, List.prod_nil, mul_one, ← mul_assoc] at this
    rw [mul_one] at e
    omega

/-- C32, refusal: reading fails exactly when the shape in the file is not the shape of the matrix. -/
theorem C32_shape (fdims : List ℕ) (N c p nv : ℕ) (s : Slab) (f : Dataset) : readallRaw fdims N c p nv s f = none ↔ fdims ≠ [N, c, p, nv] := by
  unfold readallRaw readReal
  by_cases h : fdims = [N, c, p, nv]
  · subst h; simp
  · simp [h]

/-- Two processes write 3 rows, then one process reads them all. -/
example : ∃ G : ℕ → ℕ → ℕ → ℕ → ℝ, ∃ ws : List Slab, ws.length = 2 ∧ (∀ s ∈ ws, Holds G 2 1 2 s s.data) ∧ (∀ r < 3, ∃ s ∈ ws, s.nstart ≤ r ∧ r < s.nstart + s.localN) := by
  refine ⟨fun r a b v => addr4 2 1 2 r a b v, [⟨0, 2, fun x => x⟩, ⟨2, 1, fun x => x + 8⟩], rfl, ?_, ?_⟩
  · intro s hs
    simp only [List.mem_cons, List.not_mem_nil, or_false] at hs
    rcases hs with rfl | rfl
    · intro i _ a _ b _ v _; simp [addr4]
    · intro i _ a _ b _ v _; simp only [addr4]; push_cast; ring
  · intro r hr
    by_cases h : r < 2
    · exact ⟨_, List.mem_cons_self, by simp only; omega, by simp only; omega⟩
    · exact ⟨_, List.mem_cons_of_mem _ List.mem_cons_self, by simp only; omega, by simp only; omega⟩

/-! ## C33 -/

/-- Every file gets a name ending in `.h5`. -/
theorem C33_ends (fname : List Char) : suffix <:+ addSuffix fname := by
  unfold addSuffix
  split_ifs with h
  · exact List.suffix_append _ _
  · push Not at h
    -- the first occurrence is at the end
    have key : ∀ (hay needle : List Char) (i : ℕ), strstr hay needle = some i → ∃ t, hay.drop i = needle ++ t := by
      intro hay
      induction hay with
      | nil =>
        intro needle i h
        unfold strstr at h
        split_ifs at h with hp
        · obtain ⟨t, ht⟩ := List.isPrefixOf_iff_prefix.1 hp
          injection h with h; subst h
          exact ⟨t, by simpa using ht.symm⟩
      | cons x hay ih =>
        intro needle i h
        unfold strstr at h
        split_ifs at h with hp
        · obtain ⟨t, ht⟩ := List.isPrefixOf_iff_prefix.1 hp
          injection h with h; subst h
          exact ⟨t, by simpa using ht.symm⟩
        · change Option.map (· + 1) (strstr hay needle) = some i at h
          cases hs : strstr hay needle with
          | none => rw [hs] at h; simp at h
          | some j =>
            rw [hs] at h
            simp only [Option.map_some, Option.some.injEq] at h
            subst h
            obtain ⟨t, ht⟩ := ih needle j hs
            exact ⟨t, by simpa using ht⟩
    cases hs : strstr fname suffix with
    | none => rw [hs] at h; simp at h
    | some i =>
      rw [hs] at h
      simp only [Option.map_some, Option.some.injEq] at h
      obtain ⟨t, ht⟩ := key fname suffix i hs
      have hlen := congrArg List.length ht
      simp only [List.length_drop, List.length_append] at hlen
      have ht0 : t = [] := List.length_eq_zero_iff.1 (by
        have : suffix.length = 3 := rfl
        omega)
      rw [ht0, List.append_nil] at ht
      rw [← ht]
      exact List.drop_suffix _ _

theorem strstr_none_iff : ∀ (hay needle : List Char), strstr hay needle = none ↔ ¬ needle <:+: hay := by
  intro hay
  induction hay with
  | nil =>
    intro needle
    unfold strstr
    by_cases h : needle.isPrefixOf []
    · rw [if_pos h]; simp [(List.isPrefixOf_iff_prefix.1 h).isInfix]
    · rw [if_neg h]
      simp only [true_iff]
      intro hi
      rw [List.infix_nil] at hi
      subst hi
      simp at h
  | cons x hay ih =>
    intro needle
    unfold strstr
    by_cases h : needle.isPrefixOf (x :: hay)
    · rw [if_pos h]; simp [(List.isPrefixOf_iff_prefix.1 h).isInfix]
    · rw [if_neg h]
      simp only [Option.map_eq_none_iff, ih, List.infix_cons_iff, not_or]
      exact ⟨fun hh => ⟨fun hp => h (List.isPrefixOf_iff_prefix.2 hp), hh⟩, fun hh => hh.2⟩

theorem strstr_unique : ∀ (pre needle : List Char), needle ≠ [] → (∀ i < pre.length, ¬ needle <+: (pre ++ needle).drop i) →
    strstr (pre ++ needle) needle = some pre.length := by
  intro pre
  induction pre with
  | nil =>
    intro needle _ _
    unfold strstr
    simp
  | cons x pre ih =>
    intro needle hne h
    have h0 := h 0 (by simp)
    unfold strstr
    rw [if_neg (fun hp => h0 (by simpa using List.isPrefixOf_iff_prefix.1 hp))]
    change Option.map (· + 1) (strstr (pre ++ needle) needle) = _
    rw [ih needle hne fun i hi hp => h (i + 1) (by simpa using hi) (by simpa using hp)]
    simp

/-- C33, for names in which `.h5` does not occur before the end: the file name is the given name if that ends in `.h5`, and the name with `.h5` added otherwise; giving the full name back
addresses the same file. -/
theorem C33_suffix_partial (base : List Char) (h : ¬ suffix <:+: base) (h' : ∀ i < base.length, ¬ suffix <+: (base ++ suffix).drop i) :
    addSuffix base = base ++ suffix ∧ addSuffix (base ++ suffix) = base ++ suffix := by
  constructor
  · unfold addSuffix
    rw [(strstr_none_iff _ _).2 h]
    simp
  · unfold addSuffix
    rw [strstr_unique base suffix (by simp [suffix]) h']
    have : ((base ++ suffix).length : ℤ) - suffix.length = base.length := by simp
    rw [this]
    simp

example : addSuffix "epsilon".toList = "epsilon.h5".toList ∧ addSuffix "epsilon.h5".toList = "epsilon.h5".toList ∧ addSuffix "x".toList = "x.h5".toList := by decide +kernel

/-- C33 fails for names in which `.h5` also occurs earlier: only the first occurrence is looked at, so a name that does end in `.h5` gets a second suffix, and the name of the file created does not
address that file. -/
theorem C33_refuted : ∃ name : List Char, suffix <:+ name ∧ addSuffix name = name ++ suffix ∧ addSuffix (addSuffix name) ≠ addSuffix name :=
  ⟨"a.h5.h5".toList, ⟨"a.h5".toList, by decide +kernel⟩, by decide +kernel, by decide +kernel⟩

/-! ## C34 -/

/-- The Bloch phase factor at grid point `x`. -/
noncomputable def Spec.bloch (k : ℝ × ℝ × ℝ) (dims x : ℕ × ℕ × ℕ) : ℂ :=
  Complex.exp (2 * Real.pi * Complex.I * (k.1 * x.1 / dims.1 + k.2.1 * x.2.1 / dims.2.1 + k.2.2 * x.2.2 / dims.2.2))

theorem phaseTab_eq (k : ℝ) (dim start i : ℕ) : phaseTab k dim start i = Complex.exp (2 * Real.pi * Complex.I * (k * ((start + i : ℕ) : ℂ) / dim)) := by
  have e : (2 * Real.pi * Complex.I * (k * ((start + i : ℕ) : ℂ) / dim) : ℂ) = ((2 * Real.pi * k / dim * (i + start) : ℝ) : ℂ) * Complex.I := by
    push_cast; ring
  rw [e]
  apply Complex.ext
  · rw [Complex.exp_ofReal_mul_I_re]; rfl
  · rw [Complex.exp_ofReal_mul_I_im]; rfl

theorem phase_prod (k : ℝ × ℝ × ℝ) (dims start t : ℕ × ℕ × ℕ) :
    phaseTab k.1 dims.1 start.1 t.1 * phaseTab k.2.1 dims.2.1 start.2.1 t.2.1 * phaseTab k.2.2 dims.2.2 start.2.2 t.2.2 =
      Spec.bloch k dims (start.1 + t.1, start.2.1 + t.2.1, start.2.2 + t.2.2) := by
  rw [phaseTab_eq, phaseTab_eq, phaseTab_eq, ← Complex.exp_add, ← Complex.exp_add, Spec.bloch]
  congr 1
  ring

theorem phaseAt_eq (dims start : ℕ × ℕ × ℕ) (k : ℝ × ℝ × ℝ) (t : ℕ × ℕ × ℕ) :
    phaseAt dims start k t = Spec.bloch k dims (start.1 + t.1, start.2.1 + t.2.1, start.2.2 + t.2.2) := by
  rw [← phase_prod]
  rfl

theorem mulAt_eq (ld : ℕ × ℕ × ℕ) (p : ℂ) (f : ℕ → ℂ) (t : ℕ × ℕ × ℕ) (a : ℕ) :
    mulAt ld p f t a = if a / 3 = (t.1 * ld.2.1 + t.2.1) * ld.2.2 + t.2.2 then f a * p else f a := by
  have hmul : ∀ v : ℂ, (⟨v.re * p.re - v.im * p.im, v.im * p.re + v.re * p.im⟩ : ℂ) = v * p := by
    intro v
    apply Complex.ext
    · simp [Complex.mul_re]
    · simp [Complex.mul_im]; ring
  unfold mulAt
  generalize (t.1 * ld.2.1 + t.2.1) * ld.2.2 + t.2.2 = n
  simp only [hmul, List.range_succ, List.range_zero, List.nil_append, List.cons_append, List.foldl_cons, List.foldl_nil, Function.update_apply, add_zero]
  by_cases a0 : a = n * 3
  · subst a0; simp
  · by_cases a1 : a = n * 3 + 1
    · subst a1
      have h1 : ¬ n * 3 + 1 = n * 3 + 2 := by omega
      have h2 : (n * 3 + 1) / 3 = n := by omega
      simp only [if_neg h1, if_pos h2, if_neg a0, if_true]
    · by_cases a2 : a = n * 3 + 2
      · subst a2
        have h2 : (n * 3 + 2) / 3 = n := by omega
        simp only [if_pos h2, if_neg a0, if_neg a1, if_true]
      · rw [if_neg a2, if_neg a1, if_neg a0, if_neg (by omega)]

/-- The loop of `mulPhase`: three consecutive elements are multiplied by the phase of their point. -/
theorem mulPhase_spec (dims ld start : ℕ × ℕ × ℕ) (k : ℝ × ℝ × ℝ) (field : ℕ → ℂ) :
    (∀ t : ℕ × ℕ × ℕ, t.1 < ld.1 → t.2.1 < ld.2.1 → t.2.2 < ld.2.2 → ∀ a, a / 3 = (t.1 * ld.2.1 + t.2.1) * ld.2.2 + t.2.2 →
      mulPhase dims ld start k field a = field a * Spec.bloch k dims (start.1 + t.1, start.2.1 + t.2.1, start.2.2 + t.2.2)) ∧
    (∀ a, ld.1 * ld.2.1 * ld.2.2 * 3 ≤ a → mulPhase dims ld start k field a = field a) := by
  have inj : ∀ t t' : ℕ × ℕ × ℕ, t ∈ loop3 ld.1 ld.2.1 ld.2.2 → t' ∈ loop3 ld.1 ld.2.1 ld.2.2 →
      (t.1 * ld.2.1 + t.2.1) * ld.2.2 + t.2.2 = (t'.1 * ld.2.1 + t'.2.1) * ld.2.2 + t'.2.2 → t = t' := by
    intro t t' ht ht' e
    have ht := mem_loop3.1 ht
    have ht' := mem_loop3.1 ht'
    obtain ⟨e1, e2⟩ := rowMajor_inj (n := ld.2.2) ht.2.2 ht'.2.2 e
    obtain ⟨e3, e4⟩ := rowMajor_inj (n := ld.2.1) ht.2.1 ht'.2.1 e1
    exact Prod.ext e3 (Prod.ext e4 e2)
  have nd : (loop3 ld.1 ld.2.1 ld.2.2).Nodup := by
    refine List.Nodup.of_map (fun t : ℕ × ℕ × ℕ => (t.1 * ld.2.1 + t.2.1) * ld.2.2 + t.2.2) ?_
    rw [loop3_map_addr]
    exact List.nodup_range
  have main := foldl_local_spec (α := ℂ) (fun (t : ℕ × ℕ × ℕ) a => a / 3 = (t.1 * ld.2.1 + t.2.1) * ld.2.2 + t.2.2)
    (fun f t => mulAt ld (phaseAt dims start k t) f t) (loop3 ld.1 ld.2.1 ld.2.2) field
    (fun t _ m a ha => by rw [mulAt_eq, if_neg ha])
    (fun t _ m m' h a ha => by rw [mulAt_eq, mulAt_eq, if_pos ha, if_pos ha, h a ha])
    ((List.nodup_iff_pairwise_ne.1 nd).imp_of_mem fun {t t'} ht ht' hne a ha ha' => hne (inj t t' ht ht' (ha.symm.trans ha')))
  refine ⟨fun t h1 h2 h3 a ha => ?_, fun a ha => ?_⟩
  · have := main.1 t (mem_loop3.2 ⟨h1, h2, h3⟩) a ha
    rw [mulAt_eq, if_pos ha, phaseAt_eq] at this
    exact this
  · refine main.2 a fun t ht e => ?_
    have ht := mem_loop3.1 ht
    have h1 := rowMajor_lt ht.1 ht.2.1
    have h2 := rowMajor_lt h1 ht.2.2
    omega

/-- The positions of a grid as the dataset sees them: the dataset has no third dimension when the grid has a single plane, and no second dimension when it has a single line. -/
def gridIdx (dims x : ℕ × ℕ × ℕ) : List ℕ := if dims.2.2 = 1 then (if dims.2.1 = 1 then [x.1] else [x.1, x.2.1]) else [x.1, x.2.1, x.2.2]

/-- A block of the grid held by a process. -/
def IsBlock (dims ld start : ℕ × ℕ × ℕ) : Prop :=
  start.1 + ld.1 ≤ dims.1 ∧ start.2.1 + ld.2.1 ≤ dims.2.1 ∧ start.2.2 + ld.2.2 ≤ dims.2.2

theorem firstDims_facts (dims ld start : ℕ × ℕ × ℕ) (hb : IsBlock dims ld start) (t : ℕ × ℕ × ℕ) (h1 : t.1 < ld.1) (h2 : t.2.1 < ld.2.1) (h3 : t.2.2 < ld.2.2) :
    ∃ idx ∈ boxIdx (firstDims (fieldRank dims) ld), addIdx (firstDims (fieldRank dims) start) idx =
      gridIdx dims (start.1 + t.1, start.2.1 + t.2.1, start.2.2 + t.2.2) ∧ rm (firstDims (fieldRank dims) ld) idx = (t.1 * ld.2.1 + t.2.1) * ld.2.2 + t.2.2 := by
  obtain ⟨l1, l2, l3⟩ := ld
  obtain ⟨s1, s2, s3⟩ := start
  obtain ⟨t1, t2, t3⟩ := t
  simp only [IsBlock] at hb h1 h2 h3 ⊢
  unfold fieldRank gridIdx
  by_cases e3 : dims.2.2 = 1
  · have hl3 : l3 = 1 := by omega
    have ht3 : t3 = 0 := by omega
    subst hl3 ht3
    by_cases e2 : dims.2.1 = 1
    · have hl2 : l2 = 1 := by omega
      have ht2 : t2 = 0 := by omega
      subst hl2 ht2
      refine ⟨[t1], mem_boxIdx.2 (by simp [e2, e3, firstDims, h1]), by simp [e2, e3, firstDims, addIdx], by simp [e2, e3, firstDims, rm]⟩
    · exact ⟨[t1, t2], mem_boxIdx.2 (by simp [e2, e3, firstDims, h1, h2]), by simp [e2, e3, firstDims, addIdx], by simp [e2, e3, firstDims, rm]⟩
  · refine ⟨[t1, t2, t3], mem_boxIdx.2 (by simp [e3, firstDims, h1, h2, h3]), by simp [e3, firstDims, addIdx], ?_⟩
    simp [e3, firstDims, rm]; ring

/-- The value of `field` for component `comp` at local point `t`, of `nc` components. -/
def atPoint (ld : ℕ × ℕ × ℕ) (nc : ℕ) (field : ℕ → ℂ) (t : ℕ × ℕ × ℕ) (comp : ℕ) : ℂ := field (((t.1 * ld.2.1 + t.2.1) * ld.2.2 + t.2.2) * nc + comp)

/-- The real (0) or imaginary (1) part. -/
def part (ri : ℕ) (z : ℂ) : ℝ := if ri = 0 then z.re else z.im

theorem written (dims ld start : ℕ × ℕ × ℕ) (hb : IsBlock dims ld start) (nc comp ri : ℕ) (hnc : 1 ≤ nc) (hri : ri < 2) (c0 : ℕ → ℝ) (field : ℕ → ℂ) (file : Dataset) :
    ∃ f', writeReal (firstDims (fieldRank dims) ld) (firstDims (fieldRank dims) start) (2 * nc) (fun a => asReal field (2 * comp + ri + a)) c0 file = some f' ∧
      ∀ t : ℕ × ℕ × ℕ, t.1 < ld.1 → t.2.1 < ld.2.1 → t.2.2 < ld.2.2 →
        f' (gridIdx dims (start.1 + t.1, start.2.1 + t.2.1, start.2.2 + t.2.2)) = part ri (atPoint ld nc field t comp) := by
  obtain ⟨f', h1, h2, -⟩ := writeReal_apply (firstDims (fieldRank dims) ld) (firstDims (fieldRank dims) start) (2 * nc) (fun a => asReal field (2 * comp + ri + a)) c0 file
    (by unfold firstDims fieldRank; split_ifs <;> simp) (by simp [firstDims]) (by omega)
  refine ⟨f', h1, fun t g1 g2 g3 => ?_⟩
  obtain ⟨idx, hi, e1, e2⟩ := firstDims_facts dims ld start hb t g1 g2 g3
  rw [← e1, h2 idx hi, e2]
  simp only [asReal, part, atPoint]
  generalize (t.1 * ld.2.1 + t.2.1) * ld.2.2 + t.2.2 = n
  have e : 2 * comp + ri + n * (2 * nc) = 2 * (n * nc + comp) + ri := by ring
  rw [e]
  have hd : (2 * (n * nc + comp) + ri) / 2 = n * nc + comp := by omega
  have hm : (2 * (n * nc + comp) + ri) % 2 = ri := by omega
  rw [hd, hm]

/-- C34 for vector fields: for every grid and every block of it held by a process, every dataset requested (component, real or imaginary part) holds at each point of the block the field's component
there times the Bloch phase of that point. -/
theorem C34_vector_partial (dims ld start : ℕ × ℕ × ℕ) (hb : IsBlock dims ld start) (which : ℤ) (k : ℝ × ℝ × ℝ) (c0 : ℕ → ℝ) (field : ℕ → ℂ) (files : ℕ → ℕ → Dataset)
    (comp : ℕ) (hc : comp < 3) (hw : which < 0 ∨ which = comp) (ri : ℕ) (hri : ri < 2) :
    ∃ f', (writeComplexField dims ld start which 3 (some k) c0 field files).2 comp ri = some f' ∧
      ∀ t : ℕ × ℕ × ℕ, t.1 < ld.1 → t.2.1 < ld.2.1 → t.2.2 < ld.2.2 →
        f' (gridIdx dims (start.1 + t.1, start.2.1 + t.2.1, start.2.2 + t.2.2)) =
          part ri (atPoint ld 3 field t comp * Spec.bloch k dims (start.1 + t.1, start.2.1 + t.2.1, start.2.2 + t.2.2)) := by
  obtain ⟨f', h1, h2⟩ := written dims ld start hb 3 comp ri (by norm_num) hri c0 (mulPhase dims ld start k field) (files comp ri)
  refine ⟨f', ?_, fun t g1 g2 g3 => ?_⟩
  · simp only [writeComplexField]
    rw [if_pos ⟨hc, by rcases hw with h | h <;> omega⟩]
    exact h1
  · rw [h2 t g1 g2 g3, atPoint, atPoint, (mulPhase_spec dims ld start k field).1 t g1 g2 g3 _ (by omega)]

/-- C34 without a wave vector: the datasets hold the field itself, with any number of components. -/
theorem C34_nophase_partial (dims ld start : ℕ × ℕ × ℕ) (hb : IsBlock dims ld start) (which : ℤ) (nc : ℕ) (c0 : ℕ → ℝ) (field : ℕ → ℂ) (files : ℕ → ℕ → Dataset)
    (comp : ℕ) (hc : comp < nc) (hw : which < 0 ∨ which = comp) (ri : ℕ) (hri : ri < 2) :
    ∃ f', (writeComplexField dims ld start which nc none c0 field files).2 comp ri = some f' ∧
      ∀ t : ℕ × ℕ × ℕ, t.1 < ld.1 → t.2.1 < ld.2.1 → t.2.2 < ld.2.2 →
        f' (gridIdx dims (start.1 + t.1, start.2.1 + t.2.1, start.2.2 + t.2.2)) = part ri (atPoint ld nc field t comp) := by
  obtain ⟨f', h1, h2⟩ := written dims ld start hb nc comp ri (by omega) hri c0 field (files comp ri)
  refine ⟨f', ?_, h2⟩
  simp only [writeComplexField]
  rw [if_pos ⟨hc, by rcases hw with h | h <;> omega⟩]
  exact h1

/-- Datasets that were not asked for are not touched. -/
theorem C34_others (dims ld start : ℕ × ℕ × ℕ) (which : ℤ) (nc : ℕ) (k : Option (ℝ × ℝ × ℝ)) (c0 : ℕ → ℝ) (field : ℕ → ℂ) (files : ℕ → ℕ → Dataset)
    (comp ri : ℕ) (h : nc ≤ comp ∨ (0 ≤ which ∧ which ≠ comp)) : (writeComplexField dims ld start which nc k c0 field files).2 comp ri = some (files comp ri) := by
  simp only [writeComplexField]
  rw [if_neg]
  rintro ⟨h1, h2⟩
  rcases h with h | h
  · omega
  · rcases h2 with h2 | h2 <;> omega

example : IsBlock (8, 4, 1) (3, 4, 1) (2, 0, 0) ∧ gridIdx (8, 4, 1) (4, 3, 0) = [4, 3] := by
  refine ⟨?_, rfl⟩
  simp [IsBlock]

/-- C34 fails for scalar fields written with a wave vector (as `output-field` does for complex scalar fields): on a line of two points with `k = 1/2` the second point should be multiplied by
`exp(i pi/2) = i`, but gets the first point's phase, 1; and memory behind the field is changed. -/
theorem C34_scalar_refuted : ∃ (dims : ℕ × ℕ × ℕ) (k : ℝ × ℝ × ℝ) (field : ℕ → ℂ),
    (∃ f', (writeComplexField dims dims (0, 0, 0) (-1) 1 (some k) (fun _ => 0) field (fun _ _ _ => 0)).2 0 0 = some f' ∧
      f' [1] = 1 ∧ part 0 (atPoint dims 1 field (1, 0, 0) 0 * Spec.bloch k dims (1, 0, 0)) = 0) ∧
    (∃ a ≥ dims.1 * dims.2.1 * dims.2.2, (writeComplexField dims dims (0, 0, 0) (-1) 1 (some k) (fun _ => 0) field (fun _ _ _ => 0)).1 a ≠ field a) := by
  have hph : Spec.bloch (1 / 2, 0, 0) (2, 1, 1) (1, 0, 0) = Complex.I := by
    unfold Spec.bloch
    refine Eq.trans ?_ Complex.exp_pi_div_two_mul_I
    congr 1
    push_cast
    ring
  have hph0 : Spec.bloch (1 / 2, 0, 0) (2, 1, 1) (0, 0, 0) = 1 := by
    unfold Spec.bloch
    simp
  refine ⟨(2, 1, 1), (1 / 2, 0, 0), fun _ => 1, ?_, 3, by norm_num, ?_⟩
  · obtain ⟨f', h1, h2⟩ := written (2, 1, 1) (2, 1, 1) (0, 0, 0) (by simp [IsBlock]) 1 0 0 le_rfl (by norm_num) (fun _ => 0)
      (mulPhase (2, 1, 1) (2, 1, 1) (0, 0, 0) (1 / 2, 0, 0) (fun _ => 1)) (fun _ => 0)
    refine ⟨f', ?_, ?_, ?_⟩
    · simp only [writeComplexField]
      rw [if_pos ⟨by norm_num, by norm_num⟩]
      exact h1
    · have := h2 (1, 0, 0) (by norm_num) (by norm_num) (by norm_num)
      rw [atPoint, (mulPhase_spec (2, 1, 1) (2, 1, 1) (0, 0, 0) (1 / 2, 0, 0) (fun _ => 1)).1 (0, 0, 0) (by norm_num) (by norm_num) (by norm_num) _ (by norm_num)] at this
      simp only [Nat.zero_add] at this
      rw [hph0] at this
      simpa [gridIdx, part] using this
    · rw [hph]; simp [part, atPoint]
  · simp only [writeComplexField]
    rw [(mulPhase_spec (2, 1, 1) (2, 1, 1) (0, 0, 0) (1 / 2, 0, 0) (fun _ => 1)).1 (1, 0, 0) (by norm_num) (by norm_num) (by norm_num) 3 (by norm_num)]
    simp only [Nat.zero_add]
    rw [hph, one_mul]
    intro h
    have := congrArg Complex.re h
    simp at this

end Mpb.IO

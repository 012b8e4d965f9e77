import Verif.Epsilon.Point
import Verif.Davidson.Runs

/-!
# Property C85: statistics and tensor components
-/

namespace Mpb.Epsilon
open Tensor Tensor.Spec Field Matrix Spec

/-- There is an eigenvalue routine that keeps LAPACK's promise. -/
theorem heev_exists : ∃ heev : Heev, HeevOk heev := by
  classical
  refine ⟨fun M => if h : M.IsHermitian then (Davidson.spectral M h).choose_spec.choose else 0, ?_⟩
  intro M hM
  have h : M.IsHermitian := hM
  dsimp only
  rw [dif_pos h]
  obtain ⟨h1, h2, h3, h4⟩ := (Davidson.spectral M h).choose_spec.choose_spec
  exact ⟨h4 0 1 (by decide), h4 1 2 (by decide), _, h1, h2, h3⟩

/-! ## Statistics -/

theorem foldl_stats (vals : List ℝ) (s : Stats) :
    let r := vals.foldl Stats.add s
    r.mean = s.mean + vals.sum ∧ r.invMean = s.invMean + (vals.map fun v => 1 / v).sum ∧
    r.fill = s.fill + (open Classical in vals.countP fun v => decide (1.0001 < v)) ∧
    (r.low ≤ s.low ∧ (∀ v ∈ vals, r.low ≤ v) ∧ (r.low = s.low ∨ r.low ∈ vals)) ∧
    (s.high ≤ r.high ∧ (∀ v ∈ vals, v ≤ r.high) ∧ (r.high = s.high ∨ r.high ∈ vals)) := by
  classical
  induction vals generalizing s with
  | nil => simp
  | cons v l ih =>
    obtain ⟨h1, h2, h3, ⟨h4, h5, h6⟩, h7, h8, h9⟩ := ih (s.add v)
    rw [List.foldl_cons]
    dsimp only at *
    refine ⟨?_, ?_, ?_, ⟨?_, ?_, ?_⟩, ?_, ?_, ?_⟩
    · rw [h1, List.sum_cons]; simp only [Stats.add]; ring
    · rw [h2, List.map_cons, List.sum_cons]; simp only [Stats.add]; ring
    · rw [h3, List.countP_cons]; simp only [Stats.add, gt_iff_lt, decide_eq_true_eq]; split_ifs with c <;> omega
    · refine h4.trans ?_; simp only [Stats.add]; split_ifs with c <;> linarith
    · intro w hw
      rcases List.mem_cons.mp hw with rfl | hw
      · refine h4.trans ?_; simp only [Stats.add]; split_ifs with c <;> linarith
      · exact h5 w hw
    · rcases h6 with h | h
      · rw [h]; simp only [Stats.add]; split_ifs with c <;> simp
      · exact Or.inr (List.mem_cons_of_mem _ h)
    · refine le_trans ?_ h7; simp only [Stats.add]; split_ifs with c <;> linarith
    · intro w hw
      rcases List.mem_cons.mp hw with rfl | hw
      · refine le_trans ?_ h7; simp only [Stats.add]; split_ifs with c <;> linarith
      · exact h8 w hw
    · rcases h9 with h | h
      · rw [h]; simp only [Stats.add]; split_ifs with c <;> simp
      · exact Or.inr (List.mem_cons_of_mem _ h)

theorem sum_inv_ge (l : List ℝ) (h : ∀ v ∈ l, 0 < v) {m : ℝ} (hm : 0 < m) :
    2 * l.length / m - l.sum / m ^ 2 ≤ (l.map fun v => 1 / v).sum := by
  induction l with
  | nil => simp
  | cons v l ih =>
    have hv := h v List.mem_cons_self
    have ih := ih fun w hw => h w (List.mem_cons_of_mem _ hw)
    rw [List.map_cons, List.sum_cons, List.sum_cons, List.length_cons]
    have : 2 / m - v / m ^ 2 ≤ 1 / v := by
      have e : 1 / v - (2 / m - v / m ^ 2) = (v - m) ^ 2 / (v * m ^ 2) := by field_simp; ring
      have : 0 ≤ (v - m) ^ 2 / (v * m ^ 2) := by positivity
      linarith
    push_cast
    have e2 : 2 * ((l.length : ℝ) + 1) / m - (v + l.sum) / m ^ 2 = (2 * l.length / m - l.sum / m ^ 2) + (2 / m - v / m ^ 2) := by ring
    rw [e2]
    linarith

theorem sum_bounds (l : List ℝ) {a b : ℝ} (h : ∀ v ∈ l, a ≤ v ∧ v ≤ b) : l.length * a ≤ l.sum ∧ l.sum ≤ l.length * b := by
  induction l with
  | nil => simp
  | cons v l ih =>
    obtain ⟨h1, h2⟩ := h v List.mem_cons_self
    obtain ⟨h3, h4⟩ := ih fun w hw => h w (List.mem_cons_of_mem _ hw)
    rw [List.sum_cons, List.length_cons]
    push_cast
    constructor <;> linarith

theorem mapM_some {α : Type} {β : Type} (f : α → Option β) (l : List α) (r : List β) (h : l.mapM f = some r) :
    r.length = l.length ∧ ∀ i (hi : i < l.length), f l[i] = r[i]? := by
  induction l generalizing r with
  | nil => simp at h; subst h; simp
  | cons a l ih =>
    rw [List.mapM_cons] at h
    simp only [Option.bind_eq_bind, Option.bind_eq_some_iff, Option.pure_def, Option.some.injEq] at h
    obtain ⟨b, hb, t, ht, rfl⟩ := h
    obtain ⟨h1, h2⟩ := ih t ht
    refine ⟨by simp [h1], fun i hi => ?_⟩
    cases i with
    | zero => simpa using hb
    | succ i => simpa using h2 i (by simpa using hi)

/-- C85, statistics: whenever `get-epsilon` runs on a nonempty grid and the values are positive (and below 10^20), the field holds the value of
every pixel, `low` and `high` are attained extreme values, the mean is the arithmetic mean of the pixels, the harmonic mean the harmonic one,
`low ≤ harm ≤ mean ≤ high`, and both percentages lie between 0 and 100. -/
theorem C85_stats {heev : Heev} {tensors : List HMat} {vals : List ℝ} {r : Report} (h : getEpsilon heev tensors = some (vals, r))
    (hne : tensors ≠ []) (hpos : ∀ v ∈ vals, 0 < v ∧ v < 1e20) :
    (vals.length = tensors.length ∧ ∀ i (hi : i < tensors.length), meanMedium heev tensors[i] = vals[i]?) ∧
    (r.low ∈ vals ∧ ∀ v ∈ vals, r.low ≤ v) ∧ (r.high ∈ vals ∧ ∀ v ∈ vals, v ≤ r.high) ∧
    r.mean = vals.sum / vals.length ∧ r.harm = vals.length / (vals.map fun v => 1 / v).sum ∧
    r.low ≤ r.harm ∧ r.harm ≤ r.mean ∧ r.mean ≤ r.high ∧
    r.over = 100 * (open Classical in (vals.countP fun v => decide (1.0001 < v) : ℕ)) / vals.length ∧
    0 ≤ r.over ∧ r.over ≤ 100 ∧ 0 ≤ r.fill ∧ r.fill ≤ 100 := by
  classical
  unfold getEpsilon at h
  simp only [Option.bind_eq_bind, Option.bind_eq_some_iff, Option.pure_def, Option.some.injEq, Prod.mk.injEq] at h
  obtain ⟨vs, hv, rfl, rfl⟩ := h
  obtain ⟨hl, hget⟩ := mapM_some _ _ _ hv
  obtain ⟨h1, h2, h3, ⟨h4, h5, h6⟩, h7, h8, h9⟩ := foldl_stats vs ⟨0, 0, -1e20, 1e20, 0⟩
  dsimp only at h1 h2 h3 h4 h5 h6 h7 h8 h9
  generalize vs.foldl Stats.add ⟨0, 0, -1e20, 1e20, 0⟩ = s at *
  have hvne : vs ≠ [] := by
    rintro rfl
    simp at hl
    exact hne (List.length_eq_zero_iff.mp hl.symm)
  obtain ⟨v0, hv0⟩ := List.exists_mem_of_ne_nil _ hvne
  have hn : 0 < (vs.length : ℝ) := by
    have := List.length_pos_iff.mpr hvne
    exact_mod_cast this
  have hlow : s.low ∈ vs := by
    rcases h6 with h | h
    · exfalso
      have := h5 v0 hv0
      have := (hpos v0 hv0).2
      linarith
    · exact h
  have hhigh : s.high ∈ vs := by
    rcases h9 with h | h
    · exfalso
      have := h8 v0 hv0
      have := (hpos v0 hv0).1
      linarith
    · exact h
  rw [zero_add] at h1 h2 h3
  obtain ⟨b1, b2⟩ := sum_bounds vs fun v hv => ⟨h5 v hv, h8 v hv⟩
  have hlp := (hpos _ hlow).1
  have hhp := (hpos _ hhigh).1
  have hsum : 0 < vs.sum := lt_of_lt_of_le (by positivity) b1
  have hinv := sum_bounds (vs.map fun v => 1 / v) (a := 1 / s.high) (b := 1 / s.low) (by
    intro w hw
    obtain ⟨v, hv, rfl⟩ := List.mem_map.mp hw
    exact ⟨one_div_le_one_div_of_le (hpos v hv).1 (h8 v hv), one_div_le_one_div_of_le hlp (h5 v hv)⟩)
  rw [List.length_map] at hinv
  have hT : 0 < (vs.map fun v => 1 / v).sum := lt_of_lt_of_le (by positivity) hinv.1
  have hAH := sum_inv_ge vs (fun v hv => (hpos v hv).1) (m := vs.sum / vs.length) (by positivity)
  have hcount : ((vs.countP fun v => decide (1.0001 < v) : ℕ) : ℝ) ≤ vs.length := by exact_mod_cast List.countP_le_length
  have hmh : s.mean / vs.length ≤ s.high := by rw [h1, div_le_iff₀ hn]; linarith
  have hlm : s.low ≤ s.mean / vs.length := by rw [h1, le_div_iff₀ hn]; linarith
  refine ⟨⟨hl, hget⟩, ⟨hlow, h5⟩, ⟨hhigh, h8⟩, ?_, ?_, ?_, ?_, ?_, ?_, ?_, ?_, ?_, ?_⟩ <;> unfold report <;> dsimp only <;> rw [← hl]
  · rw [h1]
  · rw [h2]
  · rw [h2, le_div_iff₀ hT]
    have := hinv.2
    rw [mul_one_div, le_div_iff₀ hlp] at this
    linarith
  · rw [h1, h2, div_le_div_iff₀ hT hn]
    have e : 2 * (vs.length : ℝ) / (vs.sum / vs.length) - vs.sum / (vs.sum / vs.length) ^ 2 = vs.length ^ 2 / vs.sum := by field_simp; ring
    rw [e, div_le_iff₀ hsum] at hAH
    nlinarith
  · exact hmh
  · rw [h3]
  · positivity
  · rw [h3, div_le_iff₀ hn]; linarith
  · split_ifs with c
    · norm_num
    · have : 0 ≤ s.mean / vs.length - s.low := by linarith
      have : 0 ≤ s.high - s.low := by linarith [h8 _ hlow]
      positivity
  · split_ifs with c
    · norm_num
    · have h10 : 0 < s.high - s.low := lt_of_le_of_ne (by linarith [h8 _ hlow]) (fun h => c (by linarith))
      rw [div_le_iff₀ h10]
      linarith

/-! ## Tensor components -/

/-- C85, components: an entry asked for by `output-epsilon` (real parts of all entries, imaginary parts of the off-diagonal ones) is that entry of
the inverse tensor (`inv`) or of its matrix inverse, the dielectric tensor. -/
theorem C85_component (c1 c2 : Fin 3) (imag inv : Bool) (hc : imag = true → c1 ≠ c2) (W : HMat) {x : ℝ} (h : tensorEntry c1 c2 imag inv W = .ok x) :
    ∃ E : Matrix (Fin 3) (Fin 3) ℂ, (if inv then E = toMatrix W else E * toMatrix W = 1 ∧ toMatrix W * E = 1) ∧
      x = if imag then (E c1 c2).im else (E c1 c2).re := by
  have key : ∀ V : HMat, (if (offsetOf c1 c2 imag).2 then -realAt V (offsetOf c1 c2 imag).1 else realAt V (offsetOf c1 c2 imag).1) =
      if imag then (toMatrix V c1 c2).im else (toMatrix V c1 c2).re := by
    intro V
    cases imag <;> fin_cases c1 <;> fin_cases c2 <;> first | (exfalso; exact hc rfl rfl) | simp [offsetOf, realAt, reals, toMatrix]
  unfold tensorEntry at h
  dsimp only at h
  cases inv with
  | true =>
    rw [if_pos rfl] at h
    exact ⟨_, rfl, by rw [← Res.ok_inj h, key]⟩
  | false =>
    rw [if_neg (by simp)] at h
    split at h
    · rename_i V hV
      have := hInvert_ok hV
      refine ⟨toMatrix V, ?_, by rw [← Res.ok_inj h, key]⟩
      rw [if_neg (by simp)]
      exact ⟨mul_eq_one_comm.mp this, this⟩
    · cases h
    · cases h

theorem getEpsilonTensor_ok (c1 c2 : ℕ) (imag inv : Bool) (l : List HMat) (r : List ℝ) (h : getEpsilonTensor c1 c2 imag inv l = .ok r) :
    r.length = l.length ∧ ∀ i (hi : i < l.length) (hr : i < r.length), tensorEntry c1 c2 imag inv l[i] = .ok r[i] := by
  induction l generalizing r with
  | nil => cases h; simp
  | cons t l ih =>
    unfold getEpsilonTensor at h
    split at h
    · rename_i v hv
      split at h
      · rename_i r' hr'
        cases h
        obtain ⟨h1, h2⟩ := ih _ hr'
        refine ⟨by simp [h1], fun i hi hr => ?_⟩
        cases i with
        | zero => simpa using hv
        | succ i => simpa using h2 i (by simpa using hi) (by simpa using hr)
      · cases h
      · cases h
    · cases h
    · cases h

theorem getEpsilonTensor_total (c1 c2 : ℕ) (imag inv : Bool) (l : List HMat) (h : ∀ t ∈ l, (toMatrix t).det ≠ 0) :
    ∃ r, getEpsilonTensor c1 c2 imag inv l = .ok r := by
  induction l with
  | nil => exact ⟨[], rfl⟩
  | cons t l ih =>
    obtain ⟨r, hr⟩ := ih fun t ht => h t (List.mem_cons_of_mem _ ht)
    obtain ⟨V, hV⟩ := hInvert_of_det (h t List.mem_cons_self)
    unfold getEpsilonTensor tensorEntry
    cases inv
    · simp only [hV, hr, Bool.false_eq_true, if_false]
      exact ⟨_, rfl⟩
    · simp only [if_true, hr]
      exact ⟨_, rfl⟩

/-- The name of the dataset for an entry. -/
def Spec.dataset (inv imag : Bool) (c1 c2 : Fin 3) : List Char :=
  (if inv then ['e', 'p', 's', 'i', 'l', 'o', 'n', '_', 'i', 'n', 'v', 'e', 'r', 's', 'e'] else ['e', 'p', 's', 'i', 'l', 'o', 'n']) ++
    ['.', ['x', 'y', 'z'][c1], ['x', 'y', 'z'][c2]] ++ if imag then ['.', 'i'] else []

/-- C85, the file: on a grid of non-singular tensors `output-epsilon` writes, under distinct names, for the tensor and its inverse all the entries on
and above the diagonal: real parts, and for the entries above the diagonal the imaginary parts.  What is written is the entry of the (inverse)
tensor of every pixel. -/
theorem C85_file (tensors : List HMat) (hdet : ∀ t ∈ tensors, (toMatrix t).det ≠ 0) :
    ((epsilonFile tensors).map Prod.fst).Nodup ∧
    ∀ (inv imag : Bool) (c1 c2 : Fin 3), c1 ≤ c2 → (imag = true → c1 ≠ c2) →
      ∃ r, (dataset inv imag c1 c2, Res.ok r) ∈ epsilonFile tensors ∧ r.length = tensors.length ∧
        ∀ i (hi : i < tensors.length) (hr : i < r.length), ∃ E : Matrix (Fin 3) (Fin 3) ℂ,
          (if inv then E = toMatrix tensors[i] else E * toMatrix tensors[i] = 1 ∧ toMatrix tensors[i] * E = 1) ∧
          r[i] = if imag then (E c1 c2).im else (E c1 c2).re := by
  constructor
  · have : (epsilonFile tensors).map Prod.fst = datasets.map Prod.fst := by unfold epsilonFile; rw [List.map_map]; rfl
    rw [this]
    decide +kernel
  · intro inv imag c1 c2 hle hc
    obtain ⟨r, hr⟩ := getEpsilonTensor_total c1 c2 imag inv tensors hdet
    obtain ⟨h1, h2⟩ := getEpsilonTensor_ok _ _ _ _ _ _ hr
    refine ⟨r, ?_, h1, fun i hi hri => C85_component c1 c2 imag inv hc _ (h2 i hi hri)⟩
    unfold epsilonFile
    refine List.mem_map.mpr ⟨(dataset inv imag c1 c2, c1, c2, imag, inv), ?_, ?_⟩
    · have all : ∀ (inv imag : Bool) (c1 c2 : Fin 3), c1 ≤ c2 → (imag = true → c1 ≠ c2) →
          (dataset inv imag c1 c2, (c1 : ℕ), (c2 : ℕ), imag, inv) ∈ datasets := by decide +kernel
      exact all inv imag c1 c2 hle hc
    · simp only [hr]

/-! ## Concrete cases -/

theorem mean_diag {heev : Heev} (hh : HeevOk heev) {a b c m : ℝ} (ha : a ≤ m) (hb : b ≤ m) (hc : c ≤ m) (hm : m = a ∨ m = b ∨ m = c)
    (hp : 0 < a + b + c - m) : meanMedium heev ⟨a, b, c, 0, 0, 0⟩ = some (2 / (a + b + c - m)) := by
  have hform : ∀ v, form (toMatrix ⟨a, b, c, 0, 0, 0⟩) v = a * Complex.normSq (v 0) + b * Complex.normSq (v 1) + c * Complex.normSq (v 2) := by
    intro v
    simp [form, toMatrix, dotProduct, Fin.sum_univ_three, Matrix.mulVec, Complex.normSq_apply]
    ring
  have hlen : ∀ v, len2 v = Complex.normSq (v 0) + Complex.normSq (v 1) + Complex.normSq (v 2) := by
    intro v
    simp [len2, dotProduct, Fin.sum_univ_three, Complex.normSq_apply]
  have htr : (toMatrix ⟨a, b, c, 0, 0, 0⟩).trace.re = a + b + c := by
    simp [Matrix.trace, toMatrix, Fin.sum_univ_three]
  obtain ⟨v, hv, hf⟩ : ∃ v, len2 v = 1 ∧ form (toMatrix ⟨a, b, c, 0, 0, 0⟩) v = m := by
    rcases hm with rfl | rfl | rfl
    · exact ⟨![1, 0, 0], by rw [hlen]; simp, by rw [hform]; simp⟩
    · exact ⟨![0, 1, 0], by rw [hlen]; simp, by rw [hform]; simp⟩
    · exact ⟨![0, 0, 1], by rw [hlen]; simp, by rw [hform]; simp⟩
  have h := eig_two_eq (eigs_ok hh ⟨a, b, c, 0, 0, 0⟩) hv (by
    intro w hw
    rw [hf, hform]
    rw [hlen] at hw
    have n0 := Complex.normSq_nonneg (w 0)
    have n1 := Complex.normSq_nonneg (w 1)
    have n2 := Complex.normSq_nonneg (w 2)
    nlinarith)
  rw [htr, hf] at h
  unfold meanMedium
  dsimp only
  rw [h, if_neg hp.ne']

/-- Two pixels with crystals turned against each other. -/
noncomputable def exT (i _j _k : ℤ) : HMat := if i % 2 = 0 then ⟨1, 1, 3, 0, 0, 0⟩ else ⟨3, 1, 1, 0, 0, 0⟩

theorem exT_holds : HoldsT ⟨2, 1, 1, false, 4⟩ [1, 1, 3, 0, 0, 0, 0, 0, 0, 3, 1, 1, 0, 0, 0, 0, 0, 0] exT := by
  intro ix iy iz hx hy hz o ho
  simp only [Shape.dims, Bool.false_eq_true, if_false] at hx hy hz ⊢
  obtain rfl : iy = 0 := by omega
  obtain rfl : iz = 0 := by omega
  interval_cases ix <;> interval_cases o <;> simp [exT, reals]

/-- "Between the values of the neighbouring pixels" would be too much to ask of `get-epsilon-point`: halfway between two pixels of value 1 whose
crystal axes differ it returns 2/3.  (This example also meets the hypotheses of `C85_point`, `C85_point_exact`, `C85_point_upper`.) -/
theorem C85_not_between {heev : Heev} (hh : HeevOk heev) :
    (∀ i j k, meanMedium heev (exT i j k) = some 1) ∧
    epsilonPoint heev ⟨2, 1, 1, false, 4⟩ ⟨1, 1, 1⟩ ⟨-1 / 4, -1 / 2, -1 / 2⟩ [1, 1, 3, 0, 0, 0, 0, 0, 0, 3, 1, 1, 0, 0, 0, 0, 0, 0] = some (2 / 3) := by
  constructor
  · intro i j k
    unfold exT
    split_ifs
    · rw [mean_diag hh (m := 3) (by norm_num) (by norm_num) (by norm_num) (by norm_num) (by norm_num)]; norm_num
    · rw [mean_diag hh (m := 3) (by norm_num) (by norm_num) (by norm_num) (by norm_num) (by norm_num)]; norm_num
  · obtain ⟨w, hw, e⟩ := epsilonPoint_eq heev _ _ _ (C85_point (S := ⟨2, 1, 1, false, 4⟩) ⟨by norm_num, by norm_num, by norm_num, by simp⟩
      ⟨1, 1, 1⟩ ⟨-1 / 4, -1 / 2, -1 / 2⟩ _ exT (by intro i j k a b c; simp [exT]) (by intro h; cases h) exT_holds)
    have hw2 : toMatrix w = toMatrix ⟨2, 1, 2, 0, 0, 0⟩ := by
      rw [hw]
      have g : Field.gridPos ⟨2, 1, 1, false, 4⟩ ⟨1, 1, 1⟩ ⟨-1 / 4, -1 / 2, -1 / 2⟩ = ⟨1 / 2, 0, 0⟩ := by
        simp only [Field.gridPos, V3.mk.injEq]
        norm_num
      have f1 : ⌊(1 / 2 : ℝ)⌋ = 0 := by norm_num
      have f2 : Int.fract (1 / 2 : ℝ) = 1 / 2 := by rw [Int.fract, f1]; norm_num
      unfold at_
      rw [g]
      simp only [Mpb.Spec.trilin_eq, f1, f2, Int.floor_zero, Int.fract_zero]
      ext i j
      fin_cases i <;> fin_cases j <;> simp [exT, toMatrix] <;> norm_num
    rw [e, toMatrix_inj hw2, mean_diag hh (m := 2) (by norm_num) (by norm_num) (by norm_num) (by norm_num) (by norm_num)]
    norm_num

/-- Non-vacuity of `C85_stats`: a pixel of vacuum and one of glass; every hypothesis holds, and the mean is 3/2. -/
example {heev : Heev} (hh : HeevOk heev) : ∃ r, getEpsilon heev [iso (1 / 1), iso (1 / 2)] = some ([1, 2], r) ∧ r.mean = 3 / 2 := by
  have h1 := C85_isotropic hh (ε := 1) (by norm_num)
  have h2 := C85_isotropic hh (ε := 2) (by norm_num)
  have h : getEpsilon heev [iso (1 / 1), iso (1 / 2)] = some ([1, 2], report ([1, 2].foldl Stats.add ⟨0, 0, -1e20, 1e20, 0⟩) 2) := by
    simp only [getEpsilon, List.mapM_cons, List.mapM_nil, h1, h2, Option.bind_eq_bind, Option.bind_some, Option.pure_def]
    rfl
  refine ⟨_, h, ?_⟩
  have := (C85_stats h (by simp) (by intro v hv; rcases List.mem_cons.mp hv with rfl | hv <;> simp_all <;> norm_num)).2.2.2.1
  rw [this]
  norm_num

/-- Non-vacuity of `C85_bounds` and `C85_file`: a complex positive definite tensor and its inverse. -/
example : Inverse ⟨2, 2, 1, Complex.I, 0, 0⟩ ⟨2 / 3, 2 / 3, 1, -(Complex.I / 3), 0, 0⟩ ∧
    (∀ v, 1 * len2 v ≤ form (toMatrix ⟨2, 2, 1, Complex.I, 0, 0⟩) v ∧ form (toMatrix ⟨2, 2, 1, Complex.I, 0, 0⟩) v ≤ 3 * len2 v) ∧
    (toMatrix ⟨2 / 3, 2 / 3, 1, -(Complex.I / 3), 0, 0⟩).det ≠ 0 := by
  have hi : Inverse ⟨2, 2, 1, Complex.I, 0, 0⟩ ⟨2 / 3, 2 / 3, 1, -(Complex.I / 3), 0, 0⟩ := by
    unfold Inverse
    ext i j
    fin_cases i <;> fin_cases j <;> apply Complex.ext <;> simp [toMatrix, Matrix.mul_apply, Fin.sum_univ_three] <;> norm_num
  refine ⟨hi, fun v => ?_, fun h => ?_⟩
  · have hf : form (toMatrix ⟨2, 2, 1, Complex.I, 0, 0⟩) v = 2 * Complex.normSq (v 0) + 2 * Complex.normSq (v 1) + Complex.normSq (v 2) +
        2 * ((v 0).im * (v 1).re - (v 0).re * (v 1).im) := by
      simp [form, toMatrix, dotProduct, Fin.sum_univ_three, Matrix.mulVec, Complex.normSq_apply]
      ring
    have hl : len2 v = Complex.normSq (v 0) + Complex.normSq (v 1) + Complex.normSq (v 2) := by
      simp [len2, dotProduct, Fin.sum_univ_three, Complex.normSq_apply]
    rw [hf, hl]
    simp only [Complex.normSq_apply]
    constructor <;> nlinarith [sq_nonneg ((v 0).im - (v 1).re), sq_nonneg ((v 0).re + (v 1).im), sq_nonneg ((v 0).im + (v 1).re),
      sq_nonneg ((v 0).re - (v 1).im), sq_nonneg (v 2).re, sq_nonneg (v 2).im]
  · have := congrArg Matrix.det hi
    rw [Matrix.det_mul, h, mul_zero, Matrix.det_one] at this
    exact zero_ne_one this

end Mpb.Epsilon

import Verif.Objects.PointSpec
import Verif.Objects.Props

/-!
# C89: the value of a field at a point
-/

namespace Mpb.Objects

open Mpb.Field

variable {inv : Bool}

theorem wrap_lt {n : ℕ} (hn : 0 < n) (i : ℤ) : wrap n i < n := by
  have h1 := Int.emod_nonneg i (b := n) (by omega)
  have h2 := Int.emod_lt_of_pos i (b := n) (by omega)
  unfold wrap
  omega

theorem wrap_cast {n : ℕ} (hn : 0 < n) (i : ℤ) : ((wrap n i : ℕ) : ℤ) = i % n := by
  have h1 := Int.emod_nonneg i (b := n) (by omega)
  unfold wrap
  omega

theorem wrap_neg {n : ℕ} (hn : 0 < n) (i : ℤ) : ((wrap n (-i) : ℕ) : ℤ) = if i % n ≠ 0 then n - i % n else i % n := by
  rw [wrap_cast hn]
  have h1 := Int.emod_nonneg i (b := n) (by omega)
  have h2 := Int.emod_lt_of_pos i (b := n) (by omega)
  have h3 : (-i) % n = (-(i % n)) % n := by rw [← zero_sub, ← zero_sub, Int.sub_emod_emod]
  split_ifs with h
  · rw [h3, ← Int.add_emod_right, Int.emod_eq_of_lt] <;> omega
  · push Not at h
    rw [h3, h]
    simp

theorem shape_ok {d : Dims} (hd : d.Good inv) : (shapeOf inv d).Ok :=
  ⟨hd.nx, hd.ny, hd.nz, fun h => by
    have := hd.half h
    simpa [Shape.nlast, shapeOf, Dims.last] using this⟩

theorem shape_dims {d : Dims} (hd : d.Good inv) : (shapeOf inv d).dims = d.stored inv := by
  unfold Shape.dims Dims.stored
  by_cases h : inv = true
  · have h2 := hd.half h
    simp only [shapeOf, h, if_true, Shape.nlast, h2, Dims.last]
    split_ifs <;> rfl
  · simp only [shapeOf, h]
    rfl

/-- What is found. -/
theorem find_spec {d : Dims} (hd : d.Good inv) (i j k : ℤ) : ∃ a b c : ℕ, ∃ r : Bool,
    (shapeOf inv d).target (i % d.nx) (j % d.ny) (k % d.nz) = ((a : ℤ), (b : ℤ), (c : ℤ), r) ∧
      a < (d.stored inv).1 ∧ b < (d.stored inv).2.1 ∧ c < (d.stored inv).2.2 ∧ d.find inv i j k = (d.place inv a b c, r) := by
  have ok := shape_ok hd
  obtain ⟨a, b, c, r, h1, h2, h3, h4, -, -⟩ := target_spec ok (ix := wrap d.nx i) (iy := wrap d.ny j) (iz := wrap d.nz k)
    (wrap_lt hd.nx i) (wrap_lt hd.ny j) (wrap_lt hd.nz k)
  rw [shape_dims hd] at h2 h3 h4
  have h1' := h1
  rw [wrap_cast hd.nx, wrap_cast hd.ny, wrap_cast hd.nz] at h1
  refine ⟨a, b, c, r, h1, h2, h3, h4, ?_⟩
  unfold Dims.find
  unfold Shape.target at h1
  by_cases hi : inv = true
  · have h5 := hd.half hi
    have e : (shapeOf inv d).lastIdx (i % d.nx) (j % d.ny) (k % d.nz) ≥ (shapeOf inv d).nlast ↔
        (if d.nz > 1 then wrap d.nz k else if d.ny > 1 then wrap d.ny j else wrap d.nx i) > d.last / 2 := by
      unfold Shape.lastIdx Shape.nlast
      simp only [shapeOf, h5, ← wrap_cast hd.nx, ← wrap_cast hd.ny, ← wrap_cast hd.nz]
      split_ifs <;> omega
    rw [if_pos (show (shapeOf inv d).inv = true from hi)] at h1
    by_cases hl : (shapeOf inv d).lastIdx (i % d.nx) (j % d.ny) (k % d.nz) ≥ (shapeOf inv d).nlast
    · rw [if_pos hl] at h1
      rw [if_pos ⟨hi, e.1 hl⟩]
      simp only [Prod.mk.injEq] at h1
      obtain ⟨e1, e2, e3, e4⟩ := h1
      have f1 : wrap d.nx (-i) = a := by have := wrap_neg hd.nx i; simp only [shapeOf] at e1; rw [e1] at this; exact_mod_cast this
      have f2 : wrap d.ny (-j) = b := by have := wrap_neg hd.ny j; simp only [shapeOf] at e2; rw [e2] at this; exact_mod_cast this
      have f3 : wrap d.nz (-k) = c := by have := wrap_neg hd.nz k; simp only [shapeOf] at e3; rw [e3] at this; exact_mod_cast this
      rw [f1, f2, f3, e4]
    · rw [if_neg hl] at h1
      rw [if_neg fun h => hl (e.2 h.2)]
      simp only [Prod.mk.injEq] at h1
      obtain ⟨e1, e2, e3, e4⟩ := h1
      rw [← wrap_cast hd.nx] at e1
      rw [← wrap_cast hd.ny] at e2
      rw [← wrap_cast hd.nz] at e3
      rw [Int.ofNat_inj.1 e1, Int.ofNat_inj.1 e2, Int.ofNat_inj.1 e3, e4]
  · rw [if_neg (by simpa [shapeOf] using hi)] at h1
    rw [if_neg fun h => hi h.1]
    simp only [Prod.mk.injEq] at h1
    obtain ⟨e1, e2, e3, e4⟩ := h1
    rw [← wrap_cast hd.nx] at e1
    rw [← wrap_cast hd.ny] at e2
    rw [← wrap_cast hd.nz] at e3
    rw [Int.ofNat_inj.1 e1, Int.ofNat_inj.1 e2, Int.ofNat_inj.1 e3, e4]

theorem place_lt {d : Dims} (hd : d.Good inv) {a b c : ℕ} (ha : a < (d.stored inv).1) (hb : b < (d.stored inv).2.1)
    (hc : c < (d.stored inv).2.2) : d.place inv a b c < d.N := by
  rw [hd.N]
  unfold Dims.place
  calc (a * (d.stored inv).2.1 + b) * (d.stored inv).2.2 + c < (a * (d.stored inv).2.1 + b) * (d.stored inv).2.2 + (d.stored inv).2.2 := by omega
    _ = (a * (d.stored inv).2.1 + b + 1) * (d.stored inv).2.2 := by ring
    _ ≤ ((d.stored inv).1 * (d.stored inv).2.1) * (d.stored inv).2.2 := by
        apply Nat.mul_le_mul_right
        calc a * (d.stored inv).2.1 + b + 1 ≤ a * (d.stored inv).2.1 + (d.stored inv).2.1 := by omega
          _ = (a + 1) * (d.stored inv).2.1 := by ring
          _ ≤ _ := Nat.mul_le_mul_right _ ha

theorem find_lt {d : Dims} (hd : d.Good inv) (i j k : ℤ) : (d.find inv i j k).1 < d.N := by
  obtain ⟨a, b, c, r, -, h2, h3, h4, h5⟩ := find_spec hd i j k
  rw [h5]
  exact place_lt hd h2 h3 h4

/-- The interpolation of the array, without any assumption about the contents. -/
theorem interp_eq {d : Dims} (hd : d.Good inv) (size p : V3 ℝ) (data : List ℝ) (off stride : ℕ) (conj : Bool) (X : ℕ → ℝ)
    (h : ∀ n < d.N, data[off + n * stride]? = some (X n)) :
    interpVal (shapeOf inv d) size p data off stride conj = some (at_ (shapeOf inv d) size p fun i j k =>
      if conj = true ∧ (d.find inv i j k).2 = true then -X (d.find inv i j k).1 else X (d.find inv i j k).1) := by
  apply combine_eq (shape_ok hd)
  intro i j k
  obtain ⟨a, b, c, r, h1, h2, h3, h4, h5⟩ := find_spec hd i j k
  unfold getVal
  have h1' : (shapeOf inv d).target (i % (shapeOf inv d).nx) (j % (shapeOf inv d).ny) (k % (shapeOf inv d).nz) = _ := h1
  simp only [h1', shape_dims hd]
  have e : ((off : ℤ) + (((a : ℤ) * (d.stored inv).2.1 + b) * (d.stored inv).2.2 + c) * stride) =
      ((off + d.place inv a b c * stride : ℕ) : ℤ) := by unfold Dims.place; push_cast; ring
  rw [e]
  unfold MpbData.rd
  rw [if_pos (by omega), Int.toNat_natCast, h _ (place_lt hd h2 h3 h4), Option.map_some, h5]
  cases conj <;> cases r <;> simp

theorem at_congr {E : Type} [AddCommGroup E] [Module ℝ E] {S : Shape} (size p : V3 ℝ) {F G : ℤ → ℤ → ℤ → E}
    (h : ∀ i j k, F i j k = G i j k) : at_ S size p F = at_ S size p G := by
  have : F = G := by funext i j k; exact h i j k
  rw [this]

theorem interpC_eq {d : Dims} (hd : d.Good inv) (size p : V3 ℝ) (data : List ℝ) (off stride : ℕ) (X : ℕ → ℂ)
    (h : ∀ n < d.N, data[off + n * stride]? = some (X n).re) (h' : ∀ n < d.N, data[off + 1 + n * stride]? = some (X n).im) :
    interpCval (shapeOf inv d) size p data off stride = some (at_ (shapeOf inv d) size p (onGrid inv d X)) := by
  unfold interpCval
  rw [interp_eq hd size p data off stride false (fun n => (X n).re) h, interp_eq hd size p data (off + 1) stride true (fun n => (X n).im) h']
  simp only [Option.bind_eq_bind, Option.bind_some, Option.pure_def]
  have e := at_complex (S := shapeOf inv d) size p (onGrid inv d X)
  rw [← e]
  congr 2
  · apply at_congr
    intro i j k
    unfold onGrid
    split_ifs <;> simp_all
  · apply at_congr
    intro i j k
    unfold onGrid
    split_ifs <;> simp_all

theorem block_get {t : St} {b i : ℕ} (h : i < t.size b) : (block t b)[i]? = some (t.mem b i) := by
  unfold block
  simp [h]

section
variable {t : St} {v : Fv} {f : Smob} (I : Is t v f) (hd : v.dims.Good inv) (size k p : V3 ℝ)
include I hd

theorem num_eq (hk : v.kind = .rs) : energyPoint (shapeOf inv f.dims) size p (block t f.ptr) = some (v.real inv size p) := by
  unfold energyPoint
  have hr := I.room
  rw [hk] at hr
  simp only [Kind.width] at hr
  rw [I.dims, interp_eq hd size p _ 0 1 false (fun n => t.mem f.ptr n) (fun n hn => by
    rw [show 0 + n * 1 = n by ring]; exact block_get (by omega))]
  congr 1
  apply at_congr
  intro i j k
  have := I.val _ (find_lt hd i j k)
  rw [hk] at this
  rw [← this]
  simp [decode, realOf]

theorem cnum_eq (hk : v.kind = .cs) : interpCval (shapeOf inv f.dims) size p (block t f.ptr) 0 2 = some (v.cplx inv size p) := by
  have hr := I.room
  rw [hk] at hr
  simp only [Kind.width] at hr
  have hv : ∀ n < v.dims.N, cplxOf (v.val n) = ⟨t.mem f.ptr (2 * n), t.mem f.ptr (2 * n + 1)⟩ := by
    intro n hn
    have := I.val n hn
    rw [hk] at this
    rw [← this]
    rfl
  rw [I.dims, interpC_eq hd size p _ 0 2 (fun n => cplxOf (v.val n)) (fun n hn => ?_) (fun n hn => ?_)]
  · rfl
  · rw [block_get (by omega), hv n hn, show 0 + n * 2 = 2 * n by ring]
  · rw [block_get (by omega), hv n hn, show 0 + 1 + n * 2 = 2 * n + 1 by ring]

theorem vec_eq (hk : v.kind = .cv) : blochFieldPoint (shapeOf inv f.dims) size p (block t f.ptr) = some (v.vect inv size p) := by
  have hr := I.room
  rw [hk] at hr
  simp only [Kind.width] at hr
  have hv : ∀ n < v.dims.N, vectOf (v.val n) = ⟨⟨t.mem f.ptr (6 * n), t.mem f.ptr (6 * n + 1)⟩,
      ⟨t.mem f.ptr (6 * n + 2), t.mem f.ptr (6 * n + 3)⟩, ⟨t.mem f.ptr (6 * n + 4), t.mem f.ptr (6 * n + 5)⟩⟩ := by
    intro n hn
    have := I.val n hn
    rw [hk] at this
    rw [← this]
    rfl
  unfold blochFieldPoint
  rw [I.dims, interpC_eq hd size p _ 0 6 (fun n => (vectOf (v.val n)).x) (fun n hn => ?_) (fun n hn => ?_),
    interpC_eq hd size p _ 2 6 (fun n => (vectOf (v.val n)).y) (fun n hn => ?_) (fun n hn => ?_),
    interpC_eq hd size p _ 4 6 (fun n => (vectOf (v.val n)).z) (fun n hn => ?_) (fun n hn => ?_)]
  · rfl
  · rw [block_get (by omega), hv n hn, show 4 + n * 6 = 6 * n + 4 by ring]
  · rw [block_get (by omega), hv n hn, show 4 + 1 + n * 6 = 6 * n + 5 by ring]
  · rw [block_get (by omega), hv n hn, show 2 + n * 6 = 6 * n + 2 by ring]
  · rw [block_get (by omega), hv n hn, show 2 + 1 + n * 6 = 6 * n + 3 by ring]
  · rw [block_get (by omega), hv n hn, show 0 + n * 6 = 6 * n by ring]
  · rw [block_get (by omega), hv n hn, show 0 + 1 + n * 6 = 6 * n + 1 by ring]

end

/-- All fields of the specification have good sizes. -/
structure Sized (inv : Bool) (s : Spec) : Prop where
  sys : ∀ d, s.sys = some d → d.Good inv
  cur : ∀ v, s.cur = some v → v.dims.Good inv
  objs : ∀ v ∈ s.objs, v.dims.Good inv

theorem Sized.lookup {s : Spec} (h : Sized inv s) {r : Ref} {v : Fv} (hv : s.lookup r = some v) : v.dims.Good inv := by
  cases r with
  | cur => exact h.cur v hv
  | obj n => exact h.objs v (List.mem_of_getElem? hv)

theorem Sized.put {s : Spec} (h : Sized inv s) (r : Ref) {v : Fv} (hv : v.dims.Good inv) : Sized inv (s.put r v) := by
  cases r with
  | cur => exact ⟨h.sys, fun w hw => (by cases hw; exact hv), h.objs⟩
  | obj n =>
    refine ⟨h.sys, h.cur, fun w hw => ?_⟩
    rcases List.mem_or_eq_of_mem_set hw with h1 | h1
    · exact h.objs w h1
    · rw [h1]; exact hv

theorem Sized.make {s : Spec} (h : Sized inv s) (k : Kind) (r : Ref) : Sized inv (s.make k r).1 := by
  unfold Spec.make
  cases hv : s.lookup r with
  | none => exact h
  | some v =>
    refine ⟨h.sys, h.cur, fun w hw => ?_⟩
    rcases List.mem_append.1 hw with h1 | h1
    · exact h.objs w h1
    · rw [List.mem_singleton] at h1
      rw [h1]
      exact (h.lookup hv : v.dims.Good inv)

theorem Sized.step {s : Spec} (h : Sized inv s) (c : Cmd) (hc : ∀ d fft junk, c = .init d fft junk → d.Good inv) : Sized inv (s.step c).1 := by
  cases c with
  | init d fft junk => exact ⟨fun d' h' => (by cases h'; exact hc d fft junk rfl), fun v hv => (by cases hv), h.objs⟩
  | fill c x =>
    simp only [Spec.step]
    split
    · rename_i d k hs hk
      exact ⟨h.sys, fun v hv => (by cases hv; exact h.sys _ hs), h.objs⟩
    · exact h
  | scratch x =>
    simp only [Spec.step]
    split_ifs
    · exact h
    · exact ⟨h.sys, fun v hv => (by cases hv), h.objs⟩
  | make k r => exact h.make k r
  | fieldMake r =>
    simp only [Spec.step]
    split
    · exact h
    · exact h.make _ _
  | nonbloch r =>
    simp only [Spec.step]
    split
    · exact h
    · rename_i v hv
      exact h.put r (h.lookup hv : v.dims.Good inv)
  | conform r q =>
    simp only [Spec.step]
    split <;> exact h
  | set r q =>
    simp only [Spec.step]
    split
    · rename_i v w hv hw
      split_ifs
      · exact h.put r (h.lookup hw)
      · exact h
    · exact h
  | load q =>
    simp only [Spec.step]
    split
    · rename_i w hw
      split_ifs
      · exact ⟨h.sys, fun v hv => (by cases hv; exact h.lookup hw), h.objs⟩
      · exact h
    · exact h
  | map r fn qs =>
    simp only [Spec.step]
    split
    · rename_i v ws hv hws
      split_ifs
      · exact h.put r (h.lookup hv : v.dims.Good inv)
      · exact h
    · exact h
  | get q i =>
    simp only [Spec.step]
    split
    · split_ifs <;> exact h
    · exact h

/-- The program and the specification are in the same state. -/
structure PRep (inv : Bool) (s : PSpec) (t : PSt) : Prop where
  rep : Rep s.s t.st
  k : s.k = t.k
  sized : Sized inv s.s

theorem phase_eq (size k p : V3 ℝ) : blochPhase size k p = phaseAt size k p := by
  rw [blochPhase_eq]
  rfl

theorem kindOf_inv {c : Char} {k : Kind} (h : kindOf c = some k) :
    (k = .cv → c ∈ ['d', 'h', 'b', 'e', 'c', 'v']) ∧ (k = .rs → c ∈ ['D', 'H', 'B', 'n', 'R']) ∧ (k = .cs → c ∈ ['C']) := by
  unfold kindOf at h
  by_cases h1 : c ∈ ['d', 'h', 'b', 'e', 'c', 'v']
  · rw [if_pos h1] at h
    cases h
    exact ⟨fun _ => h1, fun h => (by cases h), fun h => (by cases h)⟩
  · rw [if_neg h1] at h
    by_cases h2 : c ∈ ['D', 'H', 'B', 'n', 'R']
    · rw [if_pos h2] at h
      cases h
      exact ⟨fun h => (by cases h), fun _ => h2, fun h => (by cases h)⟩
    · rw [if_neg h2] at h
      by_cases h3 : c ∈ ['C']
      · rw [if_pos h3] at h
        cases h
        exact ⟨fun h => (by cases h), fun h => (by cases h), fun _ => h3⟩
      · rw [if_neg h3] at h
        cases h

section
variable {s : PSpec} {t : PSt} {v : Fv} {f : Smob} (I : Is t.st v f) (hd : v.dims.Good inv) (hk : s.k = t.k) (size p : V3 ℝ)
include I hd hk

theorem answerReal_eq : (if f.kind = .rs then (energyPoint (shapeOf inv f.dims) size p (block t.st f.ptr)).map PResp.num else some (.obj .dies)) =
    some (v.answerReal inv size p) := by
  unfold Fv.answerReal
  rw [I.kind]
  by_cases h : v.kind = .rs
  · rw [if_pos h, if_pos h, num_eq I hd size p h]; rfl
  · rw [if_neg h, if_neg h]

theorem answerVect_eq (b : Bool) : (if f.kind = .cv then
        if b then (blochFieldPoint (shapeOf inv f.dims) size p (block t.st f.ptr)).map PResp.vec
        else (fieldPoint (shapeOf inv f.dims) size t.k p (f.letter != 'v') (block t.st f.ptr)).map .vec
      else some (.obj .dies)) = some (v.answerVect inv size s.k b p) := by
  unfold Fv.answerVect
  rw [I.kind, I.letter, hk]
  by_cases h : v.kind = .cv
  · rw [if_pos h, if_pos h]
    unfold fieldPoint
    rw [vec_eq I hd size p h, phase_eq]
    cases b
    · by_cases hl : v.letter = 'v' <;> simp [hl]
    · simp
  · rw [if_neg h, if_neg h]

theorem answerCplx_eq (b : Bool) : (if f.kind = .cs then
        if b then (interpCval (shapeOf inv f.dims) size p (block t.st f.ptr) 0 2).map PResp.cnum
        else if f.letter = 'C' then (Field.cscalarPoint (shapeOf inv f.dims) size t.k p (block t.st f.ptr)).map .cnum
        else (interpCval (shapeOf inv f.dims) size p (block t.st f.ptr) 0 2).map .cnum
      else some (.obj .dies)) = some (v.answerCplx inv size s.k b p) := by
  unfold Fv.answerCplx
  rw [I.kind, I.letter, hk]
  by_cases h : v.kind = .cs
  · have hl : v.letter = 'C' := by
      simpa using (kindOf_inv I.lk).2.2 h
    rw [if_pos h, if_pos h, if_pos hl]
    unfold Field.cscalarPoint
    rw [cnum_eq I hd size p h, phase_eq]
    cases b <;> simp
  · rw [if_neg h, if_neg h]

end

/-- The check of the commands on the current field. -/
theorem cur_none {s : Spec} {t : St} (R : Rep s t) (h : s.cur = none) {l : List Char} (hl : ∀ c ∈ l, kindOf c ≠ none) :
    cur l t = some (.error ()) := by
  unfold cur
  cases t.curfield with
  | none => rfl
  | some b =>
    simp only
    rw [if_neg fun h' => hl _ h' (R.noCur h)]

theorem cur_some {s : Spec} {t : St} (R : Rep s t) {v : Fv} (h : s.cur = some v) (l : List Char) :
    ∃ d b, cur l t = (if v.letter ∈ l then some (.ok (d, b)) else some (.error ())) ∧ Is t v ⟨v.kind, t.letter, d, b⟩ := by
  obtain ⟨d, b, h1, h2, h3, I⟩ := R.cur v h
  refine ⟨d, b, ?_, I⟩
  have hl : t.letter = v.letter := I.letter
  unfold cur
  rw [h1, h2, hl]

theorem pstep_spec {s : PSpec} {t : PSt} (R : PRep inv s t) (size : V3 ℝ) (c : PCmd) (hc : PAllowed inv s c) :
    ∃ t', pstep inv size t c = some (t', (s.step inv size c).2) ∧ PRep inv (s.step inv size c).1 t' := by
  cases c with
  | obj c =>
    obtain ⟨t1, h1, R1⟩ := step_spec R.rep c hc.1
    exact ⟨⟨t1, t.k⟩, by simp only [pstep, h1, Option.map_some]; rfl, ⟨R1, R.k, R.sized.step c hc.2⟩⟩
  | solve k x =>
    obtain ⟨t1, h1, R1⟩ := step_spec R.rep (.scratch x) trivial
    have h1 : scratch x t.st = _ := h1
    simp only [pstep, h1, Option.map_some, PSpec.step]
    have hs := R.sized.step (.scratch x) (fun d fft junk h => by cases h)
    by_cases h : s.s.sys = none
    · rw [if_pos h]
      have e : s.s.step (.scratch x) = (s.s, .dies) := by simp only [Spec.step, if_pos h]
      rw [e] at R1 ⊢
      exact ⟨_, rfl, ⟨R1, R.k, R.sized⟩⟩
    · rw [if_neg h]
      have e : (s.s.step (.scratch x)).2 = .ok := by simp only [Spec.step, if_neg h]
      rw [e]
      exact ⟨_, rfl, ⟨R1, rfl, hs⟩⟩
  | rpoint r p =>
    refine ⟨t, ?_, R⟩
    simp only [pstep, rpoint, PSpec.step]
    cases hv : s.s.lookup r with
    | none => rw [lookup_none R.rep hv]; rfl
    | some v =>
      obtain ⟨f, hf, I⟩ := lookup_some R.rep hv
      rw [hf]
      simp only [Option.bind_some, ans]
      rw [answerReal_eq I (R.sized.lookup hv) R.k]
      rfl
  | vpoint b r p =>
    refine ⟨t, ?_, R⟩
    simp only [pstep, vpoint, PSpec.step]
    cases hv : s.s.lookup r with
    | none => rw [lookup_none R.rep hv]; rfl
    | some v =>
      obtain ⟨f, hf, I⟩ := lookup_some R.rep hv
      rw [hf]
      simp only [Option.bind_some, ans]
      rw [answerVect_eq I (R.sized.lookup hv) R.k]
      rfl
  | cpoint b r p =>
    refine ⟨t, ?_, R⟩
    simp only [pstep, cpoint, PSpec.step]
    cases hv : s.s.lookup r with
    | none => rw [lookup_none R.rep hv]; rfl
    | some v =>
      obtain ⟨f, hf, I⟩ := lookup_some R.rep hv
      rw [hf]
      simp only [Option.bind_some, ans]
      rw [answerCplx_eq I (R.sized.lookup hv) R.k]
      rfl
  | energyPoint p =>
    refine ⟨t, ?_, R⟩
    simp only [pstep, curEnergy, PSpec.step]
    cases hv : s.s.cur with
    | none => rw [cur_none R.rep hv (by decide)]; rfl
    | some v =>
      obtain ⟨d, b, hc, I⟩ := cur_some R.rep hv ['D', 'H', 'B', 'R']
      have hA := answerReal_eq I (R.sized.cur v hv) R.k size p
      rw [hc]
      simp only [ans]
      by_cases hl : v.letter ∈ ['D', 'H', 'B', 'R']
      · rw [if_pos hl]
        have hk : v.kind = .rs := by
          have := I.lk
          simp only [List.mem_cons, List.not_mem_nil, or_false] at hl
          rcases hl with h | h | h | h <;> rw [h] at this <;> simp [kindOf] at this <;> exact this.symm
        have hn : v.letter ≠ 'n' := by
          intro h
          rw [h] at hl
          revert hl
          decide
        rw [if_neg hn]
        simp only [if_pos hk] at hA
        simp only [Option.bind_some]
        rw [hA]
        rfl
      · rw [if_neg hl]
        by_cases hn : v.letter = 'n'
        · rw [if_pos hn]; rfl
        · rw [if_neg hn]
          have hk : v.kind ≠ .rs := by
            intro hk
            have h2 := (kindOf_inv I.lk).2.1 hk
            simp only [List.mem_cons, List.not_mem_nil, or_false] at h2 hl
            tauto
          unfold Fv.answerReal
          rw [if_neg hk]
          rfl
  | fieldPoint bl p =>
    refine ⟨t, ?_, R⟩
    simp only [pstep, curField, PSpec.step]
    cases hv : s.s.cur with
    | none => rw [cur_none R.rep hv (by decide)]; rfl
    | some v =>
      obtain ⟨d, b, hc, I⟩ := cur_some R.rep hv ['d', 'h', 'b', 'e', 'c', 'v']
      have hA := answerVect_eq I (R.sized.cur v hv) R.k size p bl
      rw [hc]
      simp only [ans]
      by_cases hl : v.letter ∈ ['d', 'h', 'b', 'e', 'c', 'v']
      · rw [if_pos hl]
        have hk : v.kind = .cv := by
          have := I.lk
          unfold kindOf at this
          rw [if_pos hl] at this
          exact (Option.some.inj this).symm
        simp only [if_pos hk] at hA
        simp only [Option.bind_some]
        rw [hA]
        rfl
      · rw [if_neg hl]
        have hk : v.kind ≠ .cv := by
          intro hk
          exact hl ((kindOf_inv I.lk).1 hk)
        unfold Fv.answerVect
        rw [if_neg hk]
        rfl
  | cscalarPoint bl p =>
    refine ⟨t, ?_, R⟩
    simp only [pstep, curScalar, PSpec.step]
    cases hv : s.s.cur with
    | none => rw [cur_none R.rep hv (by decide)]; rfl
    | some v =>
      obtain ⟨d, b, hc, I⟩ := cur_some R.rep hv ['C']
      have hA := answerCplx_eq I (R.sized.cur v hv) R.k size p bl
      rw [hc]
      simp only [ans]
      by_cases hl : v.letter ∈ ['C']
      · rw [if_pos hl]
        have hk : v.kind = .cs := by
          have := I.lk
          rw [List.mem_singleton.1 hl] at this
          simp [kindOf] at this
          exact this.symm
        simp only [if_pos hk] at hA
        simp only [Option.bind_some]
        rw [hA]
        rfl
      · rw [if_neg hl]
        have hk : v.kind ≠ .cs := by
          intro hk
          exact hl ((kindOf_inv I.lk).2.2 hk)
        unfold Fv.answerCplx
        rw [if_neg hk]
        rfl

/-- Before init-params; the wave vector is 0. -/
def PSpec.start : PSpec := ⟨Spec.start, ⟨0, 0, 0⟩⟩

def pstart : PSt := ⟨start, ⟨0, 0, 0⟩⟩

theorem pstart_rep : PRep inv PSpec.start pstart :=
  ⟨start_rep, rfl, ⟨fun d h => (by cases h), fun v h => (by cases h), fun v h => (by cases h)⟩⟩

theorem prun_spec {s : PSpec} {t : PSt} (R : PRep inv s t) (size : V3 ℝ) (cs : List PCmd) (h : PAllowedRun inv size s cs) :
    ∃ t', prun inv size t cs = some (t', (s.run inv size cs).2) ∧ PRep inv (s.run inv size cs).1 t' := by
  induction cs generalizing s t with
  | nil => exact ⟨t, rfl, R⟩
  | cons c cs ih =>
    obtain ⟨t1, h1, R1⟩ := pstep_spec R size c h.1
    rw [prun, h1, PSpec.run]
    rcases hs : s.step inv size c with ⟨s1, r⟩
    rw [hs] at R1
    have h2 : PAllowedRun inv size s1 cs := by have := h.2; rwa [hs] at this
    obtain ⟨t2, e2, R2⟩ := ih R1 h2
    cases r with
    | obj r =>
      cases r with
      | dies => exact ⟨t1, rfl, R1⟩
      | ok => exact ⟨t2, by simp [e2], R2⟩
      | field n => exact ⟨t2, by simp [e2], R2⟩
      | bool b => exact ⟨t2, by simp [e2], R2⟩
      | item c x => exact ⟨t2, by simp [e2], R2⟩
    | num x => exact ⟨t2, by simp [e2], R2⟩
    | cnum x => exact ⟨t2, by simp [e2], R2⟩
    | vec x => exact ⟨t2, by simp [e2], R2⟩

/-- **C89.**  In every history of solving, loading, computing, copying and combining fields, and reading them at points: the answers are those of the
specification (the interpolated values of what the field holds, with the Bloch phase of the current wave vector unless the field has none or
the envelope was asked for; an error for a field of another type or no field), and no array is read outside its bounds. -/
theorem C89_points (inv : Bool) (size : V3 ℝ) (cs : List PCmd) (h : PAllowedRun inv size PSpec.start cs) :
    ∃ t, prun inv size pstart cs = some (t, (PSpec.start.run inv size cs).2) := by
  obtain ⟨t, h1, -⟩ := prun_spec pstart_rep size cs h
  exact ⟨t, h1⟩

/-- A lattice vector further, a field with a Bloch phase is multiplied by exp(2πi k·R), and the envelope is the same. -/
theorem C89_bloch (inv : Bool) (size k p : V3 ℝ) (hx : size.x ≠ 0) (hy : size.y ≠ 0) (hz : size.z ≠ 0) (v : Fv) (a b c : ℤ) :
    v.vect inv size (p + ⟨a * size.x, b * size.y, c * size.z⟩) = v.vect inv size p ∧
    v.cplx inv size (p + ⟨a * size.x, b * size.y, c * size.z⟩) = v.cplx inv size p ∧
    v.real inv size (p + ⟨a * size.x, b * size.y, c * size.z⟩) = v.real inv size p ∧
    phaseAt size k (p + ⟨a * size.x, b * size.y, c * size.z⟩) =
      Complex.exp (2 * Real.pi * Complex.I * (k.x * a + k.y * b + k.z * c)) * phaseAt size k p := by
  have hw : ∀ (n : ℕ) (i q : ℤ), wrap n (i + q * n) = wrap n i ∧ wrap n (-(i + q * n)) = wrap n (-i) := by
    intro n i q
    refine ⟨by unfold wrap; rw [Int.add_mul_emod_self_right], ?_⟩
    unfold wrap
    rw [show -(i + q * n) = -i + (-q) * n by ring, Int.add_mul_emod_self_right]
  have hf : ∀ (i j k a b c : ℤ), v.dims.find inv (i + a * v.dims.nx) (j + b * v.dims.ny) (k + c * v.dims.nz) = v.dims.find inv i j k := by
    intro i j k a b c
    unfold Dims.find
    simp only [(hw _ _ _).1, (hw _ _ _).2]
  have hp : ∀ F : ℕ → ℂ, Periodic (shapeOf inv v.dims) (onGrid inv v.dims F) := by
    intro F i j k a b c
    unfold onGrid
    have := hf i j k a b c
    simp only [shapeOf]
    simp only [this]
  refine ⟨?_, C40_periodic size p hx hy hz _ (hp _) a b c, C40_periodic size p hx hy hz _ (fun i j k a b c => ?_) a b c, ?_⟩
  · unfold Fv.vect
    rw [C40_periodic size p hx hy hz _ (hp _) a b c, C40_periodic size p hx hy hz _ (hp _) a b c, C40_periodic size p hx hy hz _ (hp _) a b c]
  · have := hf i j k a b c
    simp only [shapeOf]
    rw [this]
  · rw [← phase_eq, ← phase_eq]
    exact C40_bloch size k p hx hy hz a b c

/-- `(solve-kpoint (vector3 0 0 0)) (get-efield 1) (define e (field-copy cur-field)) (solve-kpoint (vector3 0.5 0 0)) (cvector-field-get-point e p)
(get-field-point p)`, with `p` on the edge of the cell. -/
noncomputable def readBack (junk x y : ℕ → ℝ) : List PCmd :=
  [.obj (.init d2 2 junk), .solve ⟨0, 0, 0⟩ x, .obj (.fill 'e' eMem), .obj (.fieldMake .cur), .obj (.set (.obj 0) .cur), .solve ⟨1 / 2, 0, 0⟩ y,
    .vpoint false (.obj 0) ⟨1 / 2, 0, 0⟩, .vpoint true (.obj 0) ⟨1 / 2, 0, 0⟩, .fieldPoint false ⟨1 / 2, 0, 0⟩]

theorem d2_good : d2.Good false := ⟨by decide, by decide, by decide, by decide, by simp⟩

/-- The value of the copy: 3 along x, constant. -/
theorem readBack_value : Fv.vect false ⟨1, 1, 1⟩ ⟨.cv, 'e', d2, decode .cv eMem⟩ ⟨1 / 2, 0, 0⟩ = ⟨3, 0, 0⟩ := by
  have e3 : (⟨3, 0⟩ : ℂ) = 3 := by apply Complex.ext <;> simp
  have e0 : (⟨0, 0⟩ : ℂ) = 0 := rfl
  have hconst : ∀ c : ℂ, at_ (shapeOf false d2) ⟨1, 1, 1⟩ ⟨1 / 2, 0, 0⟩ (fun _ _ _ => c) = c := by
    intro c
    have := C40_convex (S := shapeOf false d2) ⟨1, 1, 1⟩ ⟨1 / 2, 0, 0⟩ (fun _ _ _ => c) {c} (convex_singleton c) (fun _ _ _ => rfl)
    exact this
  unfold Fv.vect
  have hx : onGrid false d2 (fun n => (vectOf (decode .cv eMem n)).x) = fun _ _ _ => 3 := by
    funext i j k
    simp [onGrid, Dims.find, vectOf, decode, eMem, e3]
  have hy : onGrid false d2 (fun n => (vectOf (decode .cv eMem n)).y) = fun _ _ _ => 0 := by
    funext i j k
    simp [onGrid, Dims.find, vectOf, decode, eMem, e0]
  have hz : onGrid false d2 (fun n => (vectOf (decode .cv eMem n)).z) = fun _ _ _ => 0 := by
    funext i j k
    simp [onGrid, Dims.find, vectOf, decode, eMem, e0]
  simp only [hx, hy, hz, hconst]

/-- The hypotheses are met.  The copy is still there after the second solution; the phase is that of the new wave vector, exp(2πi/4) = i; the
current field is gone. -/
example (junk x y : ℕ → ℝ) : PAllowedRun false ⟨1, 1, 1⟩ PSpec.start (readBack junk x y) ∧
    (PSpec.start.run false ⟨1, 1, 1⟩ (readBack junk x y)).2 = [.obj .ok, .obj .ok, .obj .ok, .obj (.field 0), .obj .ok, .obj .ok,
      .vec ⟨3 * Complex.I, 0, 0⟩, .vec ⟨3, 0, 0⟩, .obj .dies] := by
  have hph : phaseAt ⟨1, 1, 1⟩ ⟨1 / 2, 0, 0⟩ ⟨1 / 2, 0, 0⟩ = Complex.I := by
    unfold phaseAt
    refine Eq.trans ?_ Complex.exp_pi_div_two_mul_I
    congr 1
    push_cast
    ring
  have hg := d2_good
  refine ⟨?_, ?_⟩
  · simp [PAllowedRun, PAllowed, Allowed, readBack, PSpec.step, PSpec.start, Spec.step, Spec.start, Spec.make, Spec.lookup, Spec.put, letterKind,
      hg, freshLetter]
    simp [d2]
  · simp only [readBack, PSpec.run, PSpec.step, PSpec.start, Spec.step, Spec.start, Spec.make, Spec.lookup, Spec.put, letterKind, ans,
      Fv.answerVect, freshLetter]
    have hv := readBack_value
    rw [one_div] at hv hph
    simp [hv, hph, V3.map]

end Mpb.Objects

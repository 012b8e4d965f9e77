import Verif.Objects.Lemmas

/-!
# C82: field variables are values
-/

namespace Mpb.Objects

open Mpb.Field

/-- A field in memory: the smob `f` and its block hold the field `v`. -/
structure Is (t : St) (v : Fv) (f : Smob) : Prop where
  kind : f.kind = v.kind
  letter : f.letter = v.letter
  dims : f.dims = v.dims
  lk : kindOf v.letter = some v.kind
  room : v.kind.width * v.dims.N ≤ t.size f.ptr
  lt : f.ptr < t.next
  val : ∀ i < v.dims.N, decode v.kind (t.mem f.ptr) i = v.val i

/-- The state `t` of the program represents the state `s` of the specification. -/
structure Rep (s : Spec) (t : St) : Prop where
  sys : t.mdata.map Prod.fst = s.sys
  fft : ∀ d b, t.mdata = some (d, b) → b < t.next ∧ 6 * d.N ≤ t.size b ∧ ∀ f ∈ t.objs, f.ptr ≠ b
  curp : t.curfield = none ∨ ∃ d b, t.mdata = some (d, b) ∧ t.curfield = some b
  noCur : s.cur = none → kindOf t.letter = none
  cur : ∀ v, s.cur = some v → ∃ d b, t.mdata = some (d, b) ∧ t.curfield = some b ∧ v.dims = d ∧ Is t v ⟨v.kind, t.letter, d, b⟩
  objs : List.Forall₂ (Is t) s.objs t.objs
  sep : t.objs.Pairwise fun f g => f.ptr ≠ g.ptr
  nomd : t.mdata = none → t.objs = []

theorem width_le (k : Kind) : k.width ≤ 6 := by cases k <;> simp [Kind.width]

theorem letter_fresh (k : Kind) : freshLetter k = k.letter := by cases k <;> rfl

theorem kindOf_letter (k : Kind) : kindOf k.letter = some k := by cases k <;> rfl

theorem Is.congr {t t' : St} {v : Fv} {f : Smob} (h : Is t v f) (h1 : t'.size f.ptr = t.size f.ptr) (h2 : t'.mem f.ptr = t.mem f.ptr)
    (h3 : t.next ≤ t'.next) : Is t' v f :=
  ⟨h.kind, h.letter, h.dims, h.lk, by rw [h1]; exact h.room, lt_of_lt_of_le h.lt h3, by rw [h2]; exact h.val⟩

theorem forall2_get {s : Spec} {t : St} (R : Rep s t) (n : ℕ) :
    (s.objs[n]? = none ∧ t.objs[n]? = none) ∨ ∃ v f, s.objs[n]? = some v ∧ t.objs[n]? = some f ∧ Is t v f := by
  have h := R.objs
  have hl := h.length_eq
  rcases Nat.lt_or_ge n s.objs.length with hn | hn
  · right
    refine ⟨s.objs[n], t.objs[n]'(by omega), List.getElem?_eq_getElem hn, List.getElem?_eq_getElem (by omega), ?_⟩
    exact List.forall₂_iff_get.1 h |>.2 n hn (by omega)
  · exact Or.inl ⟨List.getElem?_eq_none hn, List.getElem?_eq_none (by omega)⟩

theorem lookup_none {s : Spec} {t : St} (R : Rep s t) {r : Ref} (h : s.lookup r = none) : smob t r = some (.error ()) := by
  cases r with
  | cur =>
    have h : s.cur = none := h
    show curSmob t = _
    unfold curSmob
    cases hm : t.mdata with
    | none => rfl
    | some m => obtain ⟨d, b⟩ := m; simp only [R.noCur h]
  | obj n =>
    have h : s.objs[n]? = none := h
    rcases forall2_get R n with ⟨-, h2⟩ | ⟨v, f, h1, -, -⟩
    · simp only [smob, h2]
    · rw [h] at h1; cases h1

theorem lookup_some {s : Spec} {t : St} (R : Rep s t) {r : Ref} {v : Fv} (h : s.lookup r = some v) :
    ∃ f, smob t r = some (.ok f) ∧ Is t v f := by
  cases r with
  | cur =>
    obtain ⟨d, b, hm, hc, hd, I⟩ := R.cur v h
    refine ⟨⟨v.kind, t.letter, d, b⟩, ?_, I⟩
    show curSmob t = _
    unfold curSmob
    have hl : t.letter = v.letter := I.letter
    simp only [hm, hl, I.lk, hc]
  | obj n =>
    have h : s.objs[n]? = some v := h
    rcases forall2_get R n with ⟨h1, -⟩ | ⟨v', f, h1, h2, I⟩
    · rw [h] at h1; cases h1
    · rw [h] at h1; cases h1
      exact ⟨f, by simp only [smob, h2], I⟩

/-- Two variables share their memory only if they are the same. -/
theorem smob_ptr {s : Spec} {t : St} (R : Rep s t) {r q : Ref} {v w : Fv} {f g : Smob} (h1 : s.lookup r = some v) (h2 : s.lookup q = some w)
    (h3 : smob t r = some (.ok f)) (h4 : smob t q = some (.ok g)) (hp : f.ptr = g.ptr) : r = q := by
  have hobj : ∀ n g, smob t (.obj n) = some (.ok g) → t.objs[n]? = some g := by
    intro n g h
    simp only [smob] at h
    cases hx : t.objs[n]? with
    | none => rw [hx] at h; simp at h
    | some f => rw [hx] at h; simp at h; rw [h]
  have hcur : ∀ (v : Fv) (f : Smob), s.lookup .cur = some v → smob t .cur = some (.ok f) → ∃ d b, t.mdata = some (d, b) ∧ f.ptr = b := by
    intro v f hv hf
    obtain ⟨d, b, hm, hc, hd, I⟩ := R.cur v hv
    refine ⟨d, b, hm, ?_⟩
    have hl : t.letter = v.letter := I.letter
    simp only [smob, curSmob, hm, hl, I.lk, hc, Option.some.injEq, Except.ok.injEq] at hf
    rw [← hf]
  cases r with
  | cur =>
    cases q with
    | cur => rfl
    | obj n =>
      exfalso
      obtain ⟨d, b, hm, hb⟩ := hcur v f h1 h3
      exact (R.fft d b hm).2.2 g (List.mem_of_getElem? (hobj n g h4)) (by rw [← hp, hb])
  | obj m =>
    cases q with
    | cur =>
      exfalso
      obtain ⟨d, b, hm, hb⟩ := hcur w g h2 h4
      exact (R.fft d b hm).2.2 f (List.mem_of_getElem? (hobj m f h3)) (by rw [hp, hb])
    | obj n =>
      have a1 := hobj m f h3
      have a2 := hobj n g h4
      obtain ⟨hm, e1⟩ := List.getElem?_eq_some_iff.1 a1
      obtain ⟨hn, e2⟩ := List.getElem?_eq_some_iff.1 a2
      by_contra hne
      have hne : m ≠ n := fun h => hne (by rw [h])
      rcases Nat.lt_or_gt_of_ne hne with hlt | hlt
      · exact List.pairwise_iff_getElem.1 R.sep m n hm hn hlt (by rw [e1, e2, hp])
      · exact List.pairwise_iff_getElem.1 R.sep n m hn hm hlt (by rw [e1, e2, hp])

/-- The current field is replaced. -/
theorem rep_cur {s : Spec} {t : St} (R : Rep s t) {d : Dims} {b : ℕ} (hm : t.mdata = some (d, b)) (M : ℕ → ℝ) (v : Fv) (hd : v.dims = d)
    (hk : kindOf v.letter = some v.kind) (hv : ∀ i < d.N, decode v.kind M i = v.val i) :
    Rep { s with cur := some v } { t with mem := Function.update t.mem b M, letter := v.letter, curfield := some b } := by
  obtain ⟨f1, f2, f3⟩ := R.fft d b hm
  refine ⟨R.sys, R.fft, Or.inr ⟨d, b, hm, rfl⟩, fun h => (by cases h), fun w hw => ?_, ?_, R.sep, R.nomd⟩
  · cases hw
    refine ⟨d, b, hm, rfl, hd, ⟨rfl, rfl, hd.symm, hk, ?_, f1, ?_⟩⟩
    · rw [hd]
      exact le_trans (Nat.mul_le_mul_right _ (width_le _)) f2
    · intro i hi
      rw [hd] at hi
      simp only [Function.update_self]
      exact hv i hi
  · have hne : ∀ f ∈ t.objs, f.ptr ≠ b := f3
    refine List.forall₂_iff_get.2 ⟨R.objs.length_eq, fun i h1 h2 => ?_⟩
    refine (List.forall₂_iff_get.1 R.objs |>.2 i h1 h2).congr rfl ?_ (le_refl _)
    simp only [Function.update_of_ne (hne _ (List.get_mem _ _))]

/-- A field variable is replaced by a field of the same type and size. -/
theorem rep_put {s : Spec} {t : St} (R : Rep s t) {r : Ref} {v v' : Fv} {f : Smob} (h1 : s.lookup r = some v) (h2 : smob t r = some (.ok f))
    (I : Is t v f) (M : ℕ → ℝ) (hk : v'.kind = v.kind) (hd : v'.dims = v.dims) (hlk : kindOf v'.letter = some v'.kind)
    (hv : ∀ i < v.dims.N, decode v.kind M i = v'.val i) : Rep (s.put r v') (setLetter r f v'.letter (upd t f.ptr M)) := by
  cases r with
  | cur =>
    obtain ⟨d, b, hm, hc, hd', I'⟩ := R.cur v h1
    have hl : t.letter = v.letter := I'.letter
    have hf : f = ⟨v.kind, v.letter, d, b⟩ := by
      have := h2
      simp only [smob, curSmob, hm, hl, I'.lk, hc, Option.some.injEq, Except.ok.injEq] at this
      exact this.symm
    subst hf
    exact rep_cur R hm M v' (by rw [hd, hd']) hlk (fun i hi => by rw [hk]; exact hv i (by rw [hd']; exact hi))
  | obj n =>
    have hn : t.objs[n]? = some f := by
      simp only [smob] at h2
      cases hx : t.objs[n]? with
      | none => rw [hx] at h2; simp at h2
      | some f' => rw [hx] at h2; simp at h2; rw [h2]
    obtain ⟨hnl, hng⟩ := List.getElem?_eq_some_iff.1 hn
    have hmem : f ∈ t.objs := List.mem_of_getElem? hn
    have hptr : ∀ g ∈ t.objs.set n { f with letter := v'.letter }, ∃ g' ∈ t.objs, g'.ptr = g.ptr := by
      intro g hg
      rcases List.mem_or_eq_of_mem_set hg with h | h
      · exact ⟨g, h, rfl⟩
      · exact ⟨f, hmem, by rw [h]⟩
    have hsep : ∀ m (hm : m < t.objs.length), m ≠ n → (t.objs[m]).ptr ≠ f.ptr := by
      intro m hm hne
      rcases Nat.lt_or_gt_of_ne hne with hlt | hlt
      · have := List.pairwise_iff_getElem.1 R.sep m n hm hnl hlt
        rwa [hng] at this
      · have := List.pairwise_iff_getElem.1 R.sep n m hnl hm hlt
        rw [hng] at this
        exact this.symm
    refine ⟨R.sys, fun d b hm => ?_, R.curp, R.noCur, fun w hw => ?_, ?_, ?_, fun hm => ?_⟩
    · obtain ⟨f1, f2, f3⟩ := R.fft d b hm
      refine ⟨f1, f2, fun g hg => ?_⟩
      obtain ⟨g', g1, g2⟩ := hptr g hg
      rw [← g2]
      exact f3 g' g1
    · obtain ⟨d, b, hm, hc, hd', I'⟩ := R.cur w hw
      refine ⟨d, b, hm, hc, hd', I'.congr rfl ?_ (le_refl _)⟩
      exact upd_mem_ne t (fun h => (R.fft d b hm).2.2 f hmem h.symm) M
    · refine List.forall₂_iff_get.2 ⟨?_, fun i g1 g2 => ?_⟩
      · show (s.objs.set n v').length = (t.objs.set n _).length
        rw [List.length_set, List.length_set]; exact R.objs.length_eq
      · have g1' : i < (s.objs.set n v').length := g1
        have g2' : i < (t.objs.set n { f with letter := v'.letter }).length := g2
        have e1 : i < s.objs.length := by rwa [List.length_set] at g1'
        have e2 : i < t.objs.length := by rwa [List.length_set] at g2'
        show Is _ ((s.objs.set n v')[i]'g1') ((t.objs.set n { f with letter := v'.letter })[i]'g2')
        by_cases hi : n = i
        · subst hi
          rw [List.getElem_set_self, List.getElem_set_self]
          refine ⟨by rw [hk]; exact I.kind, rfl, by rw [hd]; exact I.dims, hlk, by rw [hk, hd]; exact I.room, I.lt, fun i hi => ?_⟩
          rw [hd] at hi
          rw [hk]
          show decode v.kind ((upd t f.ptr M).mem f.ptr) i = _
          rw [upd_mem]
          exact hv i hi
        · rw [List.getElem_set_ne hi, List.getElem_set_ne hi]
          refine (List.forall₂_iff_get.1 R.objs |>.2 i e1 e2).congr rfl ?_ (le_refl _)
          exact upd_mem_ne t (hsep i e2 (Ne.symm hi)) M
    · show (t.objs.set n { f with letter := v'.letter }).Pairwise _
      rw [List.pairwise_iff_getElem]
      intro i j hi hj hij
      rw [List.getElem_set, List.getElem_set]
      rw [List.length_set] at hi hj
      by_cases h3 : n = i
      · rw [if_pos h3, if_neg (by omega)]
        exact (hsep j hj (by omega)).symm
      · rw [if_neg h3]
        by_cases h4 : n = j
        · rw [if_pos h4]
          exact hsep i hi (by omega)
        · rw [if_neg h4]
          exact List.pairwise_iff_getElem.1 R.sep i j hi hj hij
    · exfalso
      have := R.nomd hm
      rw [this] at hmem
      cases hmem

/-- A new block. -/
theorem rep_fresh {s : Spec} {t : St} (R : Rep s t) (M : ℕ → ℝ) (n : ℕ) :
    Rep s { t with mem := Function.update t.mem t.next M, size := Function.update t.size t.next n, next := t.next + 1 } := by
  have hI : ∀ v f, Is t v f → Is { t with mem := Function.update t.mem t.next M, size := Function.update t.size t.next n, next := t.next + 1 } v f := by
    intro v f I
    have hne : f.ptr ≠ t.next := Nat.ne_of_lt I.lt
    exact I.congr (by simp [hne]) (by simp [hne]) (Nat.le_succ _)
  refine ⟨R.sys, fun d b hm => ?_, R.curp, R.noCur, fun v hv => ?_, R.objs.imp hI, R.sep, R.nomd⟩
  · obtain ⟨f1, f2, f3⟩ := R.fft d b hm
    exact ⟨Nat.lt_succ_of_lt f1, by simp only [Function.update_of_ne (Nat.ne_of_lt f1)]; exact f2, f3⟩
  · obtain ⟨d, b, hm, hc, hd, I⟩ := R.cur v hv
    exact ⟨d, b, hm, hc, hd, hI _ _ I⟩

theorem rep_append {s : Spec} {t : St} (R : Rep s t) {v : Fv} {f : Smob} (I : Is t v f) (h1 : ∀ d b, t.mdata = some (d, b) → f.ptr ≠ b)
    (h2 : ∀ g ∈ t.objs, g.ptr ≠ f.ptr) (h3 : t.mdata ≠ Option.none) : Rep { s with objs := s.objs ++ [v] } { t with objs := t.objs ++ [f] } := by
  have hI : ∀ w g, Is t w g → Is { t with objs := t.objs ++ [f] } w g := fun w g J => J.congr rfl rfl (le_refl _)
  refine ⟨R.sys, fun d b hm => ?_, R.curp, R.noCur, fun v hv => ?_, ?_, ?_, fun h => absurd h h3⟩
  · obtain ⟨f1, f2, f3⟩ := R.fft d b hm
    refine ⟨f1, f2, fun g hg => ?_⟩
    rcases List.mem_append.1 hg with h | h
    · exact f3 g h
    · rw [List.mem_singleton] at h
      rw [h]
      exact h1 d b hm
  · obtain ⟨d, b, hm, hc, hd, J⟩ := R.cur v hv
    exact ⟨d, b, hm, hc, hd, hI _ _ J⟩
  · exact List.rel_append (R.objs.imp hI) (List.Forall₂.cons (hI _ _ I) List.Forall₂.nil)
  · rw [List.pairwise_append]
    refine ⟨R.sep, List.pairwise_singleton _ _, fun g hg f' hf' => ?_⟩
    rw [List.mem_singleton] at hf'
    rw [hf']
    exact h2 g hg

theorem kindOf_letterKind {c : Char} (h : c ≠ 'm') : kindOf c = letterKind c := by
  unfold kindOf letterKind
  have : (c ∈ ['D', 'H', 'B', 'n', 'm', 'R']) ↔ c ∈ ['D', 'H', 'B', 'n', 'R'] := by simp [h]
  simp only [this, List.mem_singleton]

theorem letterKind_of {c : Char} {k : Kind} (h : kindOf c = some k) : c ≠ '-' := by
  rintro rfl
  simp [kindOf] at h

theorem mdata_of {s : Spec} {t : St} (R : Rep s t) {r : Ref} {v : Fv} (h : s.lookup r = some v) : t.mdata ≠ none := by
  intro hm
  cases r with
  | cur =>
    obtain ⟨d, b, hm', -⟩ := R.cur v h
    rw [hm] at hm'
    cases hm'
  | obj n =>
    have h : s.objs[n]? = some v := h
    have h1 := R.nomd hm
    have h2 := R.objs.length_eq
    rw [h1] at h2
    have h3 : s.objs = [] := List.length_eq_zero_iff.1 (by simpa using h2)
    rw [h3] at h
    cases h

theorem decode_zero (k : Kind) (i : ℕ) : decode k (fun _ => 0) i = zeroItem k := by cases k <;> rfl

theorem make_spec {s : Spec} {t : St} (R : Rep s t) (k : Kind) (r : Ref) :
    ∃ t', make k r t = some (t', (s.make k r).2) ∧ Rep (s.make k r).1 t' := by
  unfold make Spec.make
  simp only [letter_fresh]
  cases hv : s.lookup r with
  | none =>
    rw [lookup_none R hv]
    exact ⟨t, rfl, R⟩
  | some v =>
    obtain ⟨f, hf, I⟩ := lookup_some R hv
    have hm := mdata_of R hv
    rw [hf]
    simp only [Option.map_some]
    rw [if_neg (fun h => hm h.2), R.objs.length_eq]
    refine ⟨_, rfl, ?_⟩
    refine rep_append (rep_fresh R (fun _ => 0) (k.width * f.dims.N)) (v := ⟨k, k.letter, v.dims, fun _ => zeroItem k⟩) (f := ⟨k, k.letter, f.dims, t.next⟩)
      ⟨rfl, rfl, I.dims, kindOf_letter k, ?_, Nat.lt_succ_self _, fun i _ => ?_⟩ (fun d b h => ?_) (fun g hg => ?_) hm
    · simp only [Function.update_self]
      rw [I.dims]
    · simp only [Function.update_self]
      exact decode_zero k i
    · exact Nat.ne_of_gt (R.fft d b h).1
    · obtain ⟨n, hn, hgn⟩ := List.getElem_of_mem hg
      rcases forall2_get R n with ⟨-, h2⟩ | ⟨w, g', -, h2, J⟩
      · rw [List.getElem?_eq_getElem hn] at h2; cases h2
      · rw [List.getElem?_eq_getElem hn, hgn] at h2
        cases h2
        exact Nat.ne_of_lt J.lt

theorem all_some {s : Spec} {t : St} (R : Rep s t) {f : Smob} {v : Fv} (I : Is t v f) :
    ∀ qs, (∃ ws gs, s.all qs = some ws ∧ (∀ w ∈ ws, w.dims = v.dims) ∧ sources t f qs = some (.ok gs) ∧ List.Forall₂ (Is t) ws gs ∧
        ∀ g ∈ gs, ∃ q w, s.lookup q = some w ∧ smob t q = some (.ok g)) ∨
      ((∀ ws, s.all qs = some ws → ¬ ∀ w ∈ ws, w.dims = v.dims) ∧ sources t f qs = some (.error ())) := by
  intro qs
  induction qs with
  | nil => exact Or.inl ⟨[], [], rfl, by simp, rfl, List.Forall₂.nil, by simp⟩
  | cons q qs ih =>
    cases hq : s.lookup q with
    | none =>
      right
      refine ⟨fun ws h => ?_, ?_⟩
      · simp [Spec.all, hq] at h
      · simp only [sources]; rw [lookup_none R hq]; rfl
    | some w =>
      obtain ⟨g, hg, J⟩ := lookup_some R hq
      have hc : conform f g = decide (v.dims = w.dims) := by rw [conform_eq, I.dims, J.dims]
      by_cases hd : v.dims = w.dims
      · rcases ih with ⟨ws, gs, a1, a2, a3, a4, a5⟩ | ⟨a1, a2⟩
        · left
          refine ⟨w :: ws, g :: gs, ?_, ?_, ?_, List.Forall₂.cons J a4, ?_⟩
          · simp [Spec.all, hq, a1]
          · intro x hx
            rcases List.mem_cons.1 hx with h | h
            · rw [h]; exact hd.symm
            · exact a2 x h
          · simp only [sources]; rw [hg]; simp [hc, hd, a3]
          · intro x hx
            rcases List.mem_cons.1 hx with h | h
            · exact ⟨q, w, hq, by rw [h]; exact hg⟩
            · exact a5 x h
        · right
          refine ⟨fun ws h => ?_, ?_⟩
          · simp only [Spec.all, hq] at h
            cases ha : s.all qs with
            | none => rw [ha] at h; cases h
            | some ws' =>
              rw [ha] at h
              cases h
              exact fun hall => a1 ws' ha (fun x hx => hall x (List.mem_cons_of_mem _ hx))
          · simp only [sources]; rw [hg]; simp [hc, hd, a2]
      · right
        refine ⟨fun ws h => ?_, ?_⟩
        · simp only [Spec.all, hq] at h
          cases ha : s.all qs with
          | none => rw [ha] at h; cases h
          | some ws' =>
            rw [ha] at h
            cases h
            exact fun hall => hd (hall w List.mem_cons_self).symm
        · simp only [sources]; rw [hg]; simp [hc, hd]

theorem mapLetter_eq {t : St} {v : Fv} {f : Smob} (I : Is t v f) {ws : List Fv} {gs : List Smob} (h : List.Forall₂ (Is t) ws gs) :
    mapLetter f gs = newLetter v ws := by
  unfold mapLetter newLetter
  simp only [letter_fresh]
  cases h with
  | nil => exact I.letter
  | cons a b =>
    cases b with
    | nil => simp only [a.kind, I.kind, a.letter, I.letter]
    | cons c d => simp only [I.kind]

theorem newLetter_kind {t : St} {v : Fv} {f : Smob} (I : Is t v f) {ws : List Fv} {gs : List Smob} (h : List.Forall₂ (Is t) ws gs) :
    kindOf (newLetter v ws) = some v.kind := by
  unfold newLetter
  simp only [letter_fresh]
  cases h with
  | nil => exact I.lk
  | cons a b =>
    cases b with
    | nil =>
      simp only
      split_ifs with hk
      · rw [a.lk, hk]
      · exact I.lk
    | cons c d => exact kindOf_letter _

theorem vals_eq {t : St} {ws : List Fv} {gs : List Smob} (h : List.Forall₂ (Is t) ws gs) {N i : ℕ} (hN : ∀ w ∈ ws, w.dims.N = N) (hi : i < N) :
    (gs.map fun g => decode g.kind (t.mem g.ptr) i) = ws.map fun w => w.val i := by
  induction h with
  | nil => rfl
  | cons a b ih =>
    simp only [List.map_cons]
    rw [ih (fun w hw => hN w (List.mem_cons_of_mem _ hw)), a.kind, a.val i (by rw [hN _ List.mem_cons_self]; exact hi)]

theorem forall2_mem {t : St} {ws : List Fv} {gs : List Smob} (h : List.Forall₂ (Is t) ws gs) {g : Smob} (hg : g ∈ gs) : ∃ w ∈ ws, Is t w g := by
  induction h with
  | nil => cases hg
  | cons a b ih =>
    rcases List.mem_cons.1 hg with h | h
    · exact ⟨_, List.mem_cons_self, by rw [h]; exact a⟩
    · obtain ⟨w, h1, h2⟩ := ih h
      exact ⟨w, List.mem_cons_of_mem _ h1, h2⟩

theorem fieldSet_some {t : St} {v w : Fv} {f g : Smob} (hk : f.kind = g.kind) (J : Is t w g) (hd : f.dims = g.dims)
    (hroom : w.kind.width * w.dims.N ≤ t.size f.ptr) (r : Ref) :
    fieldSet r f g t = some (setLetter r f w.letter (upd t f.ptr (fun j => if j < w.kind.width * w.dims.N then t.mem g.ptr j else t.mem f.ptr j)), .ok) := by
  unfold fieldSet
  rw [if_pos ⟨hk, by rw [conform_eq, hd]; simp⟩, if_neg (by rw [J.letter]; exact letterKind_of J.lk), J.kind, J.dims,
    copyLoop_eq _ _ _ _ hroom J.room, Option.map_some, J.letter]

theorem fieldSet_val {t : St} {w : Fv} {g : Smob} (J : Is t w g) (M : ℕ → ℝ) {i : ℕ} (hi : i < w.dims.N) :
    decode w.kind (fun j => if j < w.kind.width * w.dims.N then t.mem g.ptr j else M j) i = w.val i := by
  rw [← J.val i hi]
  exact decode_congr _ hi (fun j hj => if_pos hj)

/-- One command. -/
theorem step_spec {s : Spec} {t : St} (R : Rep s t) (c : Cmd) (hc : Allowed s c) : ∃ t', step t c = some (t', (s.step c).2) ∧ Rep (s.step c).1 t' := by
  cases c with
  | init d fft junk =>
    refine ⟨_, rfl, ?_⟩
    have R' := rep_fresh R junk (6 * fft)
    refine ⟨rfl, fun d' b h => ?_, Or.inl rfl, fun _ => rfl, fun v hv => (by cases hv), R'.objs.imp (fun v f I => I.congr rfl rfl (le_refl _)), R'.sep,
      fun h => (by cases h)⟩
    simp only [init, Option.some.injEq, Prod.mk.injEq] at h
    obtain ⟨rfl, rfl⟩ := h
    refine ⟨Nat.lt_succ_self _, ?_, fun f hf => ?_⟩
    · simp only [init, Function.update_self]
      have : d.N ≤ fft := hc
      omega
    · have hf : f ∈ t.objs := hf
      obtain ⟨w, -, J⟩ := forall2_mem R.objs hf
      exact Nat.ne_of_lt J.lt
  | fill c x =>
    obtain ⟨h1, h2⟩ := hc
    cases hm : t.mdata with
    | none =>
      have hs : s.sys = none := by rw [← R.sys, hm]; rfl
      refine ⟨t, ?_, ?_⟩
      · simp only [step, fill, hm, Spec.step, hs]
      · simp only [Spec.step, hs]; exact R
    | some m =>
      obtain ⟨d, b⟩ := m
      have hs : s.sys = some d := by rw [← R.sys, hm]; rfl
      cases hk : letterKind c with
      | none => exact absurd hk h2
      | some k =>
        simp only [step, fill, hm, Spec.step, hs, hk]
        refine ⟨_, rfl, ?_⟩
        have := rep_cur R hm x ⟨k, c, d, decode k x⟩ rfl (by rw [kindOf_letterKind h1]; exact hk) (fun i _ => rfl)
        rw [hs, hm] at this
        exact this
  | scratch x =>
    cases hm : t.mdata with
    | none =>
      have hs : s.sys = none := by rw [← R.sys, hm]; rfl
      refine ⟨t, ?_, ?_⟩
      · simp only [step, scratch, hm, Spec.step, hs, if_true]
      · simp only [Spec.step, hs, if_true]; exact R
    | some m =>
      obtain ⟨d, b⟩ := m
      have hs : s.sys = some d := by rw [← R.sys, hm]; rfl
      simp only [step, scratch, hm, Spec.step, hs, reduceCtorEq, if_false]
      refine ⟨_, rfl, ?_⟩
      obtain ⟨f1, f2, f3⟩ := R.fft d b hm
      refine ⟨rfl, fun d' b' h => R.fft d' b' (by rw [hm]; exact h), Or.inr ⟨d, b, rfl, rfl⟩, fun _ => rfl, fun v hv => (by cases hv), ?_, R.sep, fun h => (by cases h)⟩
      refine List.forall₂_iff_get.2 ⟨R.objs.length_eq, fun i h1 h2 => ?_⟩
      refine (List.forall₂_iff_get.1 R.objs |>.2 i h1 h2).congr rfl ?_ (le_refl _)
      simp only [Function.update_of_ne (f3 _ (List.get_mem _ _))]
  | make k r => exact make_spec R k r
  | fieldMake r =>
    simp only [step, fieldMake, Spec.step]
    cases hv : s.lookup r with
    | none => rw [lookup_none R hv]; exact ⟨t, rfl, R⟩
    | some v =>
      obtain ⟨f, hf, I⟩ := lookup_some R hv
      rw [hf]
      simp only [Option.bind_some]
      rw [I.kind]
      exact make_spec R v.kind r
  | nonbloch r =>
    simp only [step, nonbloch, Spec.step]
    cases hv : s.lookup r with
    | none => rw [lookup_none R hv]; exact ⟨t, rfl, R⟩
    | some v =>
      obtain ⟨f, hf, I⟩ := lookup_some R hv
      rw [hf]
      simp only [Option.map_some]
      refine ⟨_, rfl, ?_⟩
      have hk : v.kind = .cv := hc v hv
      have := rep_put R hv hf I (t.mem f.ptr) (v' := { v with letter := 'v' }) rfl rfl (by simp only [hk]; rfl) I.val
      rwa [upd_self] at this
  | conform r q =>
    simp only [step, conformp, Spec.step]
    cases hv : s.lookup r with
    | none => rw [lookup_none R hv]; exact ⟨t, rfl, R⟩
    | some v =>
      obtain ⟨f, hf, I⟩ := lookup_some R hv
      rw [hf]
      cases hw : s.lookup q with
      | none => rw [lookup_none R hw]; exact ⟨t, rfl, R⟩
      | some w =>
        obtain ⟨g, hg, J⟩ := lookup_some R hw
        rw [hg]
        refine ⟨t, ?_, R⟩
        simp only [Option.bind_some, Option.map_some, conform_eq, I.dims, J.dims]
  | set r q =>
    simp only [step, set, Spec.step]
    cases hv : s.lookup r with
    | none => rw [lookup_none R hv]; exact ⟨t, rfl, R⟩
    | some v =>
      obtain ⟨f, hf, I⟩ := lookup_some R hv
      rw [hf]
      cases hw : s.lookup q with
      | none => rw [lookup_none R hw]; exact ⟨t, rfl, R⟩
      | some w =>
        obtain ⟨g, hg, J⟩ := lookup_some R hw
        rw [hg]
        simp only [Option.bind_some]
        by_cases hcd : v.kind = w.kind ∧ v.dims = w.dims
        · rw [if_pos hcd]
          obtain ⟨hk, hd⟩ := hcd
          rw [fieldSet_some (v := v) (by rw [I.kind, J.kind, hk]) J (by rw [I.dims, J.dims, hd]) (by rw [← hk, ← hd]; exact I.room)]
          refine ⟨_, rfl, ?_⟩
          exact rep_put R hv hf I _ hk.symm hd.symm J.lk (fun i hi => by rw [hk]; exact fieldSet_val J _ (by rw [← hd]; exact hi))
        · rw [if_neg hcd]
          refine ⟨t, ?_, R⟩
          unfold fieldSet
          rw [if_neg]
          rw [conform_eq, I.kind, J.kind, I.dims, J.dims, decide_eq_true_eq]
          exact hcd
  | load q =>
    simp only [step, load, Spec.step]
    cases hw : s.lookup q with
    | none => rw [lookup_none R hw]; exact ⟨t, rfl, R⟩
    | some w =>
      obtain ⟨g, hg, J⟩ := lookup_some R hw
      rw [hg]
      simp only [Option.bind_some]
      cases hm : t.mdata with
      | none => exact absurd hm (mdata_of R hw)
      | some m =>
        obtain ⟨d, b⟩ := m
        have hs : s.sys = some d := by rw [← R.sys, hm]; rfl
        have ht : ∃ f, curTarget t d b = some f ∧ f.dims = d ∧ f.ptr = b := by
          unfold curTarget
          cases hk : kindOf t.letter with
          | none =>
            rcases R.curp with h | ⟨d', b', h1, h2⟩
            · exact ⟨_, rfl, rfl, by simp [h]⟩
            · rw [hm] at h1; cases h1
              exact ⟨_, rfl, rfl, by simp [h2]⟩
          | some k =>
            cases hcur : s.cur with
            | none => rw [R.noCur hcur] at hk; cases hk
            | some u =>
              obtain ⟨d', b', h1, h2, -⟩ := R.cur u hcur
              rw [hm] at h1; cases h1
              exact ⟨_, by rw [h2]; rfl, rfl, rfl⟩
        obtain ⟨f, hf, hfd, hfb⟩ := ht
        simp only [hf, Option.bind_some, conform_eq, hs]
        obtain ⟨f1, f2, f3⟩ := R.fft d b hm
        by_cases hd : w.dims = d
        · rw [if_pos (by rw [J.dims, hd, hfd]; simp), if_pos (by rw [hd])]
          rw [fieldSet_some (v := w) (f := ⟨g.kind, f.letter, f.dims, f.ptr⟩) (g := g) rfl J (by rw [J.dims, hd]; exact hfd)
            (by show _ ≤ t.size f.ptr; rw [hfb, hd]; exact le_trans (Nat.mul_le_mul_right _ (width_le _)) f2)]
          refine ⟨_, rfl, ?_⟩
          have := rep_cur R hm (fun j => if j < w.kind.width * w.dims.N then t.mem g.ptr j else t.mem f.ptr j) w hd J.lk
            (fun i hi => fieldSet_val J _ (by rw [hd]; exact hi))
          simp only [setLetter, upd, hfb]
          rw [hfb, hs] at this
          exact this
        · rw [if_neg (by rw [J.dims, hfd]; simpa using hd), if_neg (by simpa using fun h => hd h.symm)]
          exact ⟨t, rfl, R⟩
  | map r fn qs =>
    simp only [step, map, Spec.step]
    cases hv : s.lookup r with
    | none => rw [lookup_none R hv]; exact ⟨t, rfl, R⟩
    | some v =>
      obtain ⟨f, hf, I⟩ := lookup_some R hv
      rw [hf]
      simp only [Option.bind_some]
      rcases all_some R I qs with ⟨ws, gs, a1, a2, a3, a4, a5⟩ | ⟨a1, a2⟩
      · rw [a1, a3]
        simp only [Option.bind_some]
        rw [if_pos a2]
        have hfn : ∀ l, itemKind (fn l) = f.kind := fun l => by rw [I.kind]; exact hc v hv l
        have hN : ∀ w ∈ ws, w.dims.N = f.dims.N := fun w hw => by rw [a2 w hw, I.dims]
        have hg : ∀ g ∈ gs, g.kind.width * f.dims.N ≤ t.size g.ptr := by
          intro g hg
          obtain ⟨w, hw, J⟩ := forall2_mem a4 hg
          rw [J.kind, ← hN w hw]
          exact J.room
        have hsep : ∀ g ∈ gs, g.ptr = f.ptr → g.kind = f.kind := by
          intro g hg hp
          obtain ⟨q, w, q1, q2⟩ := a5 g hg
          have := smob_ptr R q1 hv q2 hf hp
          rw [this, hf] at q2
          simp only [Option.some.injEq, Except.ok.injEq] at q2
          rw [q2]
        obtain ⟨M, m1, m2⟩ := mapLoop_eq t f fn gs f.dims.N (by rw [I.kind, I.dims]; exact I.room) hg hsep hfn f.dims.N (le_refl _)
        rw [m1, Option.map_some, mapLetter_eq I a4]
        refine ⟨_, rfl, ?_⟩
        refine rep_put R hv hf I M (v' := ⟨v.kind, newLetter v ws, v.dims, fun i => fn (ws.map fun w => w.val i)⟩) rfl rfl
          (newLetter_kind I a4) (fun i hi => ?_)
        rw [← I.kind, m2 i, if_pos (by rw [I.dims]; exact hi), vals_eq a4 hN (by rw [I.dims]; exact hi)]
      · rw [a2]
        cases ha : s.all qs with
        | none => exact ⟨t, rfl, R⟩
        | some ws =>
          simp only
          rw [if_neg (a1 ws ha)]
          exact ⟨t, rfl, R⟩
  | get q i =>
    simp only [step, get, Spec.step]
    cases hw : s.lookup q with
    | none => rw [lookup_none R hw]; exact ⟨t, rfl, R⟩
    | some w =>
      obtain ⟨g, hg, J⟩ := lookup_some R hw
      rw [hg]
      simp only [Option.bind_some]
      by_cases hi : i < w.dims.N
      · rw [if_pos (by rw [J.dims]; exact hi), if_pos hi, itemAt_eq t g hi (by rw [J.kind]; exact J.room), J.kind, J.val i hi, J.letter]
        exact ⟨t, rfl, R⟩
      · rw [if_neg (by rw [J.dims]; exact hi), if_neg hi]
        exact ⟨t, rfl, R⟩

theorem start_rep : Rep Spec.start start :=
  ⟨rfl, fun d b h => (by cases h), Or.inl rfl, fun _ => rfl, fun v h => (by cases h), List.Forall₂.nil, List.Pairwise.nil, fun _ => rfl⟩

theorem run_spec {s : Spec} {t : St} (R : Rep s t) (cs : List Cmd) (h : AllowedRun s cs) :
    ∃ t', run t cs = some (t', (s.run cs).2) ∧ Rep (s.run cs).1 t' := by
  induction cs generalizing s t with
  | nil => exact ⟨t, rfl, R⟩
  | cons c cs ih =>
    obtain ⟨t1, h1, R1⟩ := step_spec R c h.1
    rw [run, h1, Spec.run]
    rcases hs : s.step c with ⟨s1, r⟩
    rw [hs] at R1
    have h2 : AllowedRun s1 cs := by have := h.2; rwa [hs] at this
    obtain ⟨t2, e2, R2⟩ := ih R1 h2
    cases r with
    | dies => exact ⟨t1, rfl, R1⟩
    | ok => exact ⟨t2, by simp [e2], R2⟩
    | field n => exact ⟨t2, by simp [e2], R2⟩
    | bool b => exact ⟨t2, by simp [e2], R2⟩
    | item c x => exact ⟨t2, by simp [e2], R2⟩

/-- C82, all histories (partial: the current field is never the permeability).  In every history of commands field variables behave as
values: the program makes the same responses as the specification, in which there is no memory, and never accesses an array outside its
bounds. -/
theorem C82_values_partial (cs : List Cmd) (h : AllowedRun Spec.start cs) : ∃ t, run start cs = some (t, (Spec.start.run cs).2) := by
  obtain ⟨t, h1, -⟩ := run_spec start_rep cs h
  exact ⟨t, h1⟩

/-- C82, at any time: what the variables hold is what the specification says, so a copy does not change when the field it was made from, or
the current field, changes later. -/
theorem C82_state_partial (cs : List Cmd) (h : AllowedRun Spec.start cs) (q : Ref) (i : ℕ) :
    ∃ t, (∃ rs, run start cs = some (t, rs)) ∧ (get q i t).map Prod.snd = some ((Spec.start.run cs).1.step (.get q i)).2 := by
  obtain ⟨t, h1, R⟩ := run_spec start_rep cs h
  obtain ⟨t', h2, -⟩ := step_spec R (.get q i) trivial
  exact ⟨t, ⟨_, h1⟩, by rw [show get q i t = _ from h2]; rfl⟩

/-- A system with two grid points. -/
def d2 : Dims := ⟨2, 1, 1, 2, 1, 0, 1, 1, 2⟩

/-- The cross product, as in a Poynting vector. -/
def crossItem : List Item → Item
  | [.v a, .v b] => .v ⟨a.y * b.z - a.z * b.y, a.z * b.x - a.x * b.z, a.x * b.y - a.y * b.x⟩
  | _ => .v ⟨0, 0, 0⟩

theorem crossItem_kind (l : List Item) : itemKind (crossItem l) = .cv := by
  unfold crossItem
  split <;> rfl

/-- The electric field is along x, the magnetic field is along y. -/
def eMem (i : ℕ) : ℝ := if i % 6 = 0 then 3 else 0
def hMem (i : ℕ) : ℝ := if i % 6 = 2 then 5 else 0

/-- `(get-efield 1) (define e (field-copy cur-field)) (get-hfield 1) (define s (field-map! (field-make e) cross e cur-field))
(cvector-field-nonbloch! s) (field-load s)`. -/
def poynting (junk : ℕ → ℝ) : List Cmd :=
  [.init d2 2 junk, .fill 'e' eMem, .fieldMake .cur, .set (.obj 0) .cur, .fill 'h' hMem, .fieldMake (.obj 0),
    .map (.obj 1) crossItem [.obj 0, .cur], .nonbloch (.obj 1), .load (.obj 1), .get .cur 1, .get (.obj 0) 1]

/-- The hypotheses are met, and the Poynting vector is along z; the copy of the electric field is still there. -/
example (junk : ℕ → ℝ) : AllowedRun Spec.start (poynting junk) ∧ (Spec.start.run (poynting junk)).2 =
    [.ok, .ok, .field 0, .ok, .ok, .field 1, .ok, .ok, .ok, .item 'v' (.v ⟨0, 0, 15⟩), .item 'e' (.v ⟨3, 0, 0⟩)] := by
  have e : (⟨0, 0⟩ : ℂ) = 0 := rfl
  have e3 : (⟨3, 0⟩ : ℂ) = 3 := by apply Complex.ext <;> simp
  have e5 : (⟨5, 0⟩ : ℂ) = 5 := by apply Complex.ext <;> simp
  refine ⟨?_, ?_⟩
  · simp [AllowedRun, Allowed, poynting, Spec.step, Spec.start, Spec.make, Spec.lookup, Spec.put, Spec.all, letterKind, d2, crossItem_kind, freshLetter]
  · simp [poynting, Spec.run, Spec.step, Spec.start, Spec.make, Spec.lookup, Spec.put, Spec.all, letterKind, d2, freshLetter, decode, eMem, hMem,
      crossItem, e, e3, e5]
    norm_num

/-- C82 without the restriction is false of the code: after `(get-mu)` the current field is not a field to the program, so
`(field-copy cur-field)` ends it, although get-mu leaves the permeability there and the specification allows the copy
(mpb/field-smob.c:142-160 lacks the letter 'm' that get-mu sets, mpb/medium.c:73). -/
theorem C82_mu_refuted (d : Dims) (junk x : ℕ → ℝ) :
    (run start [.init d d.N junk, .fill 'm' x, .fieldMake .cur]).map Prod.snd = some [.ok, .ok, .dies] ∧
      (Spec.start.run [.init d d.N junk, .fill 'm' x, .fieldMake .cur]).2 = [.ok, .ok, .field 0] := by
  refine ⟨?_, ?_⟩
  · simp [run, step, start, init, fill, fieldMake, smob, curSmob, kindOf]
  · simp [Spec.run, Spec.step, Spec.start, Spec.make, Spec.lookup, letterKind]

/-- `field-map!` does not always give its result a letter: here the copy of an energy density is overwritten with the x components of a
vector field, and it is still called an energy density (mpb/field-smob.c:373-386). -/
theorem C82_label_refuted (d : Dims) (hd : 0 < d.N) (junk x y : ℕ → ℝ) (fn : List Item → Item) (hfn : ∀ l, itemKind (fn l) = .rs) :
    AllowedRun Spec.start [.init d d.N junk, .fill 'D' x, .fieldMake .cur, .set (.obj 0) .cur, .fill 'e' y, .map (.obj 0) fn [.cur], .get (.obj 0) 0] ∧
    (Spec.start.run [.init d d.N junk, .fill 'D' x, .fieldMake .cur, .set (.obj 0) .cur, .fill 'e' y, .map (.obj 0) fn [.cur], .get (.obj 0) 0]).2 =
      [.ok, .ok, .field 0, .ok, .ok, .ok, .item 'D' (fn [decode .cv y 0])] := by
  refine ⟨?_, ?_⟩
  · simp [AllowedRun, Allowed, Spec.step, Spec.start, Spec.make, Spec.lookup, Spec.put, Spec.all, letterKind, freshLetter, hfn]
  · simp [Spec.run, Spec.step, Spec.start, Spec.make, Spec.lookup, Spec.put, Spec.all, letterKind, freshLetter, newLetter, hd]

end Mpb.Objects

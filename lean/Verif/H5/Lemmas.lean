import Verif.H5.Spec

/-! # Lemmas for C108 -/

namespace Mpb.H5
open Mpb.IO Spec

section assoc
variable {α : Type}

theorem get_del_self (f : List (Name × α)) (n : Name) : get (del f n) n = none := by
  unfold get del
  rw [Option.map_eq_none_iff, List.find?_eq_none]
  intro e he
  simp at he
  simpa using he.2

theorem get_del_ne (f : List (Name × α)) {n m : Name} (h : m ≠ n) : get (del f n) m = get f m := by
  unfold get del
  congr 1
  induction f with
  | nil => rfl
  | cons e f ih =>
    by_cases he : e.1 = n
    · rw [List.filter_cons_of_neg (by simpa using he), List.find?_cons_of_neg (by simpa [he] using fun h' => h h'.symm)]
      exact ih
    · rw [List.filter_cons_of_pos (by simpa using he)]
      by_cases hm : e.1 = m
      · rw [List.find?_cons_of_pos (by simpa using hm), List.find?_cons_of_pos (by simpa using hm)]
      · rw [List.find?_cons_of_neg (by simpa using hm), List.find?_cons_of_neg (by simpa using hm)]
        exact ih

@[simp] theorem get_put_self (f : List (Name × α)) (n : Name) (o : α) : get (put f n o) n = some o := by
  simp [get, put]

theorem get_put_ne (f : List (Name × α)) {n m : Name} (h : m ≠ n) (o : α) : get (put f n o) m = get f m := by
  rw [← get_del_ne f h]
  unfold put get
  rw [List.find?_cons_of_neg (by simpa using fun h' => h h'.symm)]

theorem get_isSome_iff (f : List (Name × α)) (n : Name) : (get f n).isSome ↔ n ∈ f.map (·.1) := by
  unfold get
  rw [Option.isSome_map, List.find?_isSome]
  simp

end assoc

theorem firstDims_gridDims (n : ℕ × ℕ × ℕ) : firstDims (fieldRank n) n = gridDims n := by
  unfold firstDims fieldRank gridDims
  split_ifs <;> rfl

theorem gridDims_ne (n : ℕ × ℕ × ℕ) : gridDims n ≠ [] := by
  unfold gridDims
  split_ifs <;> simp

/-- A step that adds one new dataset. -/
def Adds (n : ℕ × ℕ × ℕ) (s : File → Res File) (e : Name × Entry) : Prop :=
  ∀ f, get f e.1 = none → ∃ b, s f = .ok (put f e.1 (.dset b [])) ∧ Meets n e.2 b

theorem exactly_put {n : ℕ × ℕ × ℕ} {f : File} {es : List (Name × Entry)} (h : Exactly n f es) (e : Name × Entry) (hn : e.1 ∉ es.map (·.1)) {b : Arr}
    (hb : Meets n e.2 b) : Exactly n (put f e.1 (.dset b [])) (es ++ [e]) := by
  constructor
  · intro m
    by_cases hm : m = e.1
    · subst hm
      simp
    · rw [get_put_ne f hm, h.1 m]
      simp [hm]
  · intro e' he'
    rw [List.mem_append, List.mem_singleton] at he'
    rcases he' with he' | rfl
    · have hne : e'.1 ≠ e.1 := fun h' => hn (h' ▸ List.mem_map_of_mem he')
      rw [get_put_ne f hne]
      exact h.2 e' he'
    · exact ⟨b, [], get_put_self _ _ _, hb⟩

theorem steps_cons (s : File → Res File) (l : List (File → Res File)) (f : File) : steps (s :: l) f = (s f).bind (steps l) := by
  unfold steps
  rw [List.foldl_cons]
  change List.foldl _ (s f) l = _
  cases s f with
  | ok f' => rfl
  | error e =>
    change _ = Except.error e
    induction l with
    | nil => rfl
    | cons s l ih => exact ih

theorem steps_append (l l' : List (File → Res File)) (f : File) : steps (l ++ l') f = (steps l f).bind (steps l') := by
  induction l generalizing f with
  | nil => rfl
  | cons s l ih =>
    rw [List.cons_append, steps_cons, steps_cons]
    cases s f with
    | ok f' => exact ih f'
    | error e => rfl

/-- Steps that add datasets with different names. -/
theorem steps_exactly {n : ℕ × ℕ × ℕ} {ss : List (File → Res File)} {es : List (Name × Entry)} (h : List.Forall₂ (Adds n) ss es) :
    ∀ {f : File} {es0 : List (Name × Entry)}, Exactly n f es0 → ((es0 ++ es).map (·.1)).Nodup → ∃ f', steps ss f = .ok f' ∧ Exactly n f' (es0 ++ es) := by
  induction h with
  | nil => intro f es0 h0 _; exact ⟨f, rfl, by simpa using h0⟩
  | @cons s e ss es hs _ ih =>
    intro f es0 h0 hn
    have hne : e.1 ∉ es0.map (·.1) := by
      rw [List.map_append, List.map_cons, List.nodup_append] at hn
      exact fun h' => hn.2.2 _ h' _ List.mem_cons_self rfl
    have hg : get f e.1 = none := by
      cases hge : get f e.1 with
      | none => rfl
      | some o => exact absurd ((h0.1 e.1).1 (by simp [hge])) hne
    obtain ⟨b, hb, hm⟩ := hs f hg
    obtain ⟨f', hf, hx⟩ := ih (exactly_put h0 e hne hm) (by simpa using hn)
    refine ⟨f', ?_, by simpa using hx⟩
    rw [steps_cons, hb]
    exact hf

/-! ## The steps -/

theorem createDataset_new {f : File} {name : Name} {dims : List ℕ} (h : get f name = none) (hd : dims ≠ []) :
    createDataset f name none dims = .ok (put f name (.dset ⟨dims, .num fun _ => 0⟩ [])) := by
  have he : datasetExists f name = false := by simp [datasetExists, h]
  have hl : dims.length > 0 := List.length_pos_iff.2 hd
  simp [createDataset, he, hl, h, writeStringAttr]

theorem put_put {α : Type} (f : List (Name × α)) (n : Name) (o o' : α) : put (put f n o) n o' = put f n o' := by
  unfold put
  congr 1
  unfold del
  rw [List.filter_cons_of_neg (by simp), List.filter_filter]
  simp

theorem gridIdx_cases (n : ℕ × ℕ × ℕ) (hn : 0 < n.1 ∧ 0 < n.2.1 ∧ 0 < n.2.2) (v : ℕ → ℝ) (d : Dataset)
    (h : ∀ idx ∈ boxIdx (gridDims n), d (addIdx (firstDims (fieldRank n) (0, 0, 0)) idx) = v (rm (gridDims n) idx)) :
    ∀ t : ℕ × ℕ × ℕ, t.1 < n.1 → t.2.1 < n.2.1 → t.2.2 < n.2.2 → d (gridIdx n t) = v ((t.1 * n.2.1 + t.2.1) * n.2.2 + t.2.2) := by
  intro t h1 h2 h3
  obtain ⟨idx, hi, e1, e2⟩ := firstDims_facts n n (0, 0, 0) ⟨by simp, by simp, by simp⟩ t h1 h2 h3
  rw [firstDims_gridDims] at hi e2
  have := h idx hi
  rw [e1, e2] at this
  simpa using this

theorem adds_scalar (n : ℕ × ℕ × ℕ) (hn : 0 < n.1 ∧ 0 < n.2.1 ∧ 0 < n.2.2) (c0 vals : ℕ → ℝ) (name : Name) :
    Adds n (writeScalar n c0 vals name) (name, .grid fun t => vals ((t.1 * n.2.1 + t.2.1) * n.2.2 + t.2.2)) := by
  intro f hf
  obtain ⟨d, h1, h2, -⟩ := writeReal_apply (gridDims n) (firstDims (fieldRank n) (0, 0, 0)) 1 vals c0 (fun _ => 0) (gridDims_ne n)
    (by rw [← firstDims_gridDims]; simp [firstDims]) le_rfl
  refine ⟨⟨gridDims n, .num d⟩, ?_, rfl, d, rfl, gridIdx_cases n hn vals d fun idx hi => by rw [h2 idx hi, mul_one]⟩
  unfold writeScalar
  rw [firstDims_gridDims, createDataset_new hf (gridDims_ne n)]
  simp only [Except.bind, writeData, get_put_self, h1, put_put]

theorem adds_comp (n : ℕ × ℕ × ℕ) (c0 : ℕ → ℝ) (nc : ℕ) (hnc : 1 ≤ nc) (field : ℕ → ℂ) (comp ri : ℕ) (hri : ri < 2) :
    Adds n (writeComp n c0 nc field comp ri) (compName nc comp ri, .grid fun t => part ri (field (((t.1 * n.2.1 + t.2.1) * n.2.2 + t.2.2) * nc + comp))) := by
  intro f hf
  obtain ⟨d, h1, h2⟩ := written n n (0, 0, 0) ⟨by simp, by simp, by simp⟩ nc comp ri hnc hri c0 field (fun _ => 0)
  refine ⟨⟨gridDims n, .num d⟩, ?_, rfl, d, rfl, fun t g1 g2 g3 => ?_⟩
  · unfold writeComp
    dsimp only at hf ⊢
    rw [firstDims_gridDims, createDataset_new hf (gridDims_ne n)]
    rw [firstDims_gridDims] at h1
    simp only [Except.bind, writeData, get_put_self, h1, put_put]
  · have := h2 t g1 g2 g3
    simpa [atPoint] using this

theorem adds_table (n : ℕ × ℕ × ℕ) (name : Name) (h : name ≠ []) (val : ℕ → ℝ) (dims : List ℕ) :
    Adds n (fun f => writeDataAttr f .file (some name) val dims) (name, .table dims ((List.range dims.prod).map val)) := by
  intro f hf
  refine ⟨⟨dims, .num fun idx => val (rm dims idx)⟩, ?_, rfl, _, rfl, ?_⟩
  · simp only at hf
    simp [writeDataAttr, h, writeAttr, hf]
  · rw [← map_rm_boxIdx, List.map_map]
    rfl

theorem adds_text (n : ℕ × ℕ × ℕ) (name s : List Char) (h : name ≠ []) (hs : s ≠ []) :
    Adds n (fun f => writeStringAttr f .file (some name) (some s)) (name, .text s) := by
  intro f hf
  refine ⟨⟨[], .str s⟩, ?_, rfl, rfl⟩
  simp only at hf
  simp [writeStringAttr, h, hs, writeAttr, hf]

theorem exactly_nil (n : ℕ × ℕ × ℕ) : Exactly n [] [] := by
  constructor
  · intro m
    simp [get]
  · intro e he
    simp at he

/-! ## The first dataset -/

theorem findDataset_iff (f : File) (n : Name) :
    findDataset f = some n ↔ datasetExists f n ∧ ∀ m, datasetExists f m → n ≤ m := by
  have hmem : ∀ m, datasetExists f m = true → m ∈ (f.map (·.1)).insertionSort (· ≤ ·) := by
    intro m hm
    rw [List.mem_insertionSort, ← get_isSome_iff]
    unfold datasetExists at hm
    split at hm
    · rename_i h; simp [h]
    · exact absurd hm (by simp)
  have hs : ((f.map (·.1)).insertionSort (· ≤ ·)).Pairwise (· ≤ ·) := List.pairwise_insertionSort _ _
  unfold findDataset
  generalize (f.map (·.1)).insertionSort (· ≤ ·) = l at hmem hs
  constructor
  · intro h
    refine ⟨List.find?_some h, fun m hm => ?_⟩
    obtain ⟨-, as, bs, rfl, hb⟩ := List.find?_eq_some_iff_append.1 h
    have hml := hmem m hm
    rw [List.mem_append] at hml
    rcases hml with hml | hml
    · exact absurd hm (by simpa using hb m hml)
    · rcases List.mem_cons.1 hml with rfl | hml
      · exact List.le_refl _
      · exact (List.pairwise_cons.1 (List.pairwise_append.1 hs).2.1).1 m hml
  · rintro ⟨h1, h2⟩
    cases hf : l.find? (datasetExists f) with
    | none => exact absurd h1 (List.find?_eq_none.1 hf n (hmem n h1))
    | some m =>
      obtain ⟨hm, as, bs, rfl, hb⟩ := List.find?_eq_some_iff_append.1 hf
      have h3 : n ≤ m := h2 m hm
      have hnl := hmem n h1
      rw [List.mem_append] at hnl
      rcases hnl with hnl | hnl
      · exact absurd h1 (by simpa using hb n hnl)
      · rcases List.mem_cons.1 hnl with rfl | hnl
        · rfl
        · have := (List.pairwise_cons.1 (List.pairwise_append.1 hs).2.1).1 n hnl
          rw [List.le_antisymm h3 this]

theorem findDataset_none (f : File) : findDataset f = none ↔ ∀ m, datasetExists f m = false := by
  constructor
  · intro h m
    by_contra hm
    rw [Bool.not_eq_false] at hm
    unfold findDataset at h
    rw [List.find?_eq_none] at h
    refine h m ?_ hm
    rw [List.mem_insertionSort, ← get_isSome_iff]
    unfold datasetExists at hm
    split at hm
    · rename_i h; simp [h]
    · exact absurd hm (by simp)
  · intro h
    unfold findDataset
    rw [List.find?_eq_none]
    intro m _
    simp [h m]

/-- The first dataset of a file whose contents are listed. -/
theorem exactly_first {n : ℕ × ℕ × ℕ} {f : File} {es : List (Name × Entry)} (h : Exactly n f es) {m : Name} (hm : m ∈ es.map (·.1))
    (hmin : ∀ m' ∈ es.map (·.1), m ≤ m') : findDataset f = some m := by
  have hd : ∀ m', datasetExists f m' = true ↔ m' ∈ es.map (·.1) := by
    intro m'
    constructor
    · intro h'
      rw [← h.1]
      unfold datasetExists at h'
      split at h'
      · rename_i h; simp [h]
      · exact absurd h' (by simp)
    · intro h'
      obtain ⟨e, he, rfl⟩ := List.mem_map.1 h'
      obtain ⟨a, attrs, hg, -⟩ := h.2 e he
      simp [datasetExists, hg]
  rw [findDataset_iff]
  exact ⟨(hd m).2 hm, fun m' hm' => hmin m' ((hd m').1 hm')⟩

end Mpb.H5

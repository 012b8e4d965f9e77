import Verif.H5.ParallelModel
import Verif.H5.Props
import Verif.Dist.FieldProps

/-! # C121: files written by several processes -/

namespace Mpb.H5
open Mpb.IO Mpb.Dist Mpb.Dist.Spec Mpb.H5.Spec

variable {P : ℕ}

namespace Spec

/-- The processes hold together what one process holds: the same settings, and of every array the values at their rows of the second dimension. -/
structure SameOut (o : OutP P) (s : Out) : Prop where
  type : o.type = s.type
  n : o.n = s.n
  R : o.R = s.R
  currentK : o.currentK = s.currentK
  hermitian : o.hermitian = s.hermitian
  description : o.description = s.description
  rows : Covers o.ly o.n.2.1
  field : SameField o.ly o.n.1 o.n.2.1 o.n.2.2 s.field o.field
  vals : TransposedPieces o.ly o.n.1 o.n.2.1 o.n.2.2 s.vals o.vals
  tensor : ∀ c1 c2 im inv, TransposedPieces o.ly o.n.1 o.n.2.1 o.n.2.2 (s.tensor c1 c2 im inv) fun r => o.tensor r c1 c2 im inv

/-- The first two of three rows exchanged. -/
def exchangeRows (l : List ℝ) : List ℝ := (l.drop (l.length / 3)).take (l.length / 3) ++ l.take (l.length / 3) ++ l.drop (2 * (l.length / 3))

/-- A dataset with the first two directions exchanged: the points of the grid, and the rows of a table about the three directions. -/
def exchange : Entry → Entry
  | .grid v => .grid fun t => v (t.2.1, t.1, t.2.2)
  | .table dims vals => .table dims (exchangeRows vals)
  | .text s => .text s

/-- The list of a file with the first two directions exchanged. -/
def exchanged (es : List (Name × Entry)) : List (Name × Entry) := es.map fun e => (e.1, exchange e.2)

end Spec

/-! ## One block -/

theorem firstDims_ne (n d : ℕ × ℕ × ℕ) : firstDims (fieldRank n) d ≠ [] := by
  unfold firstDims fieldRank
  split_ifs <;> simp

theorem block_values (n : ℕ × ℕ × ℕ) (ys l : ℕ) (hb : 0 < l → ys + l ≤ n.1) (stride : ℕ) (hs : 1 ≤ stride) (data c0 : ℕ → ℝ) (v : Dataset) :
    ∃ v', writeReal (firstDims (fieldRank n) (l, n.2)) (firstDims (fieldRank n) (ys, 0, 0)) stride data c0 v = some v' ∧
      ∀ t : ℕ × ℕ × ℕ, t.1 < n.1 → t.2.1 < n.2.1 → t.2.2 < n.2.2 → v' (gridIdx n t) =
        if ys ≤ t.1 ∧ t.1 < ys + l then data ((((t.1 - ys) * n.2.1 + t.2.1) * n.2.2 + t.2.2) * stride) else v (gridIdx n t) := by
  obtain ⟨v', h1, h2, h3⟩ := writeReal_apply (firstDims (fieldRank n) (l, n.2)) (firstDims (fieldRank n) (ys, 0, 0)) stride data c0 v
    (firstDims_ne _ _) (by simp [firstDims]) hs
  refine ⟨v', h1, fun t g1 g2 g3 => ?_⟩
  split_ifs with ht
  · obtain ⟨idx, hi, e1, e2⟩ := firstDims_facts n (l, n.2) (ys, 0, 0) ⟨hb (by omega), by simp, by simp⟩ (t.1 - ys, t.2) (by simp only; omega) g2 g3
    have := h2 idx hi
    rw [e1, e2] at this
    simp only [zero_add] at this
    rw [show ys + (t.1 - ys) = t.1 by omega] at this
    exact this
  · refine h3 _ fun idx hi e => ht ?_
    obtain ⟨n1, n2, n3⟩ := n
    obtain ⟨t1, t2, t3⟩ := t
    rw [mem_boxIdx] at hi
    have : ∃ i rest, idx = i :: rest ∧ i < l := by
      cases hi' : idx with
      | nil => rw [hi'] at hi; exact absurd (List.forall₂_nil_left_iff.1 hi) (firstDims_ne _ _)
      | cons i rest =>
        rw [hi'] at hi
        refine ⟨i, rest, rfl, ?_⟩
        unfold firstDims fieldRank at hi
        dsimp only at hi
        split_ifs at hi <;> exact (List.forall₂_cons.1 hi).1
    obtain ⟨i, rest, rfl, hil⟩ := this
    unfold gridIdx firstDims fieldRank addIdx at e
    dsimp only at e
    split_ifs at e <;> · have := (List.cons.inj e).1; dsimp only at this ⊢; omega

/-- The array holds what it should in the rows `S`. -/
def MeetsOn (S : ℕ → Prop) (n : ℕ × ℕ × ℕ) (e : Entry) (a : Arr) : Prop :=
  match e with
  | .grid v => a.dims = gridDims n ∧ ∃ d, a.content = .num d ∧ ∀ t : ℕ × ℕ × ℕ, t.1 < n.1 → t.2.1 < n.2.1 → t.2.2 < n.2.2 → S t.1 → d (gridIdx n t) = v t
  | .table dims vals => a.dims = dims ∧ ∃ d, a.content = .num d ∧ (boxIdx dims).map d = vals
  | .text s => a.dims = [] ∧ a.content = .str s

theorem writeData_block (n : ℕ × ℕ × ℕ) (ys l : ℕ) (hb : 0 < l → ys + l ≤ n.1) (stride : ℕ) (hs : 1 ≤ stride) (data c0 : ℕ → ℝ) (name : Name)
    (v : ℕ × ℕ × ℕ → ℝ) (hv : ∀ t : ℕ × ℕ × ℕ, t.1 < n.1 → t.2.1 < n.2.1 → t.2.2 < n.2.2 → ys ≤ t.1 → t.1 < ys + l →
      data ((((t.1 - ys) * n.2.1 + t.2.1) * n.2.2 + t.2.2) * stride) = v t)
    (f : File) (a : Arr) (S : ℕ → Prop) (hf : get f name = some (.dset a [])) (ha : MeetsOn S n (.grid v) a) :
    ∃ b, writeData f name (firstDims (fieldRank n) (l, n.2)) (firstDims (fieldRank n) (ys, 0, 0)) stride data c0 = .ok (put f name (.dset b [])) ∧
      MeetsOn (fun y => S y ∨ (ys ≤ y ∧ y < ys + l)) n (.grid v) b := by
  obtain ⟨adims, acont⟩ := a
  obtain ⟨hd, d, hc, hval⟩ := ha
  dsimp only at hd hc
  subst hc
  obtain ⟨d', h1, h2⟩ := block_values n ys l hb stride hs data c0 d
  refine ⟨⟨adims, .num d'⟩, ?_, hd, d', rfl, fun t g1 g2 g3 hS => ?_⟩
  · simp only [writeData, hf, h1]
  · rw [h2 t g1 g2 g3]
    split_ifs with ht
    · exact hv t g1 g2 g3 ht.1 ht.2
    · exact hval t g1 g2 g3 (hS.resolve_right ht)

/-! ## Processes in turn -/

/-- A step of the master adds a new dataset, right in the rows `S`. -/
def FillsFirst (S : ℕ → Prop) (n : ℕ × ℕ × ℕ) (s : File → Res File) (e : Name × Entry) : Prop :=
  ∀ f, get f e.1 = none → ∃ b, s f = .ok (put f e.1 (.dset b [])) ∧ MeetsOn S n e.2 b

/-- A step of another process makes the rows `S` right, too. -/
def FillsLater (S : ℕ → Prop) (n : ℕ × ℕ × ℕ) (s : File → Res File) (e : Name × Entry) : Prop :=
  ∀ f a T, get f e.1 = some (.dset a []) → MeetsOn T n e.2 a →
    ∃ b f', s f = .ok f' ∧ (∀ m, get f' m = if m = e.1 then some (.dset b []) else get f m) ∧ MeetsOn (fun y => T y ∨ S y) n e.2 b

/-- The file contains exactly the datasets listed, right in the rows given for each. -/
def ExactlyOn (S : Name → ℕ → Prop) (n : ℕ × ℕ × ℕ) (f : File) (es : List (Name × Entry)) : Prop :=
  (∀ m, (get f m).isSome ↔ m ∈ es.map (·.1)) ∧ ∀ e ∈ es, ∃ a, get f e.1 = some (.dset a []) ∧ MeetsOn (S e.1) n e.2 a

theorem steps_first {S : ℕ → Prop} {n : ℕ × ℕ × ℕ} {ss : List (File → Res File)} {es : List (Name × Entry)} (h : List.Forall₂ (FillsFirst S n) ss es) :
    ∀ {f : File} {es0 : List (Name × Entry)}, ExactlyOn (fun _ => S) n f es0 → ((es0 ++ es).map (·.1)).Nodup →
      ∃ f', steps ss f = .ok f' ∧ ExactlyOn (fun _ => S) n f' (es0 ++ es) := by
  induction h with
  | nil => intro f es0 h0 _; exact ⟨f, rfl, by simpa using h0⟩
  | @cons s e ss es hs _ ih =>
    intro f es0 h0 hn
    have hne : e.1 ∉ es0.map (·.1) := by
      rw [List.map_append, List.map_cons, List.nodup_append] at hn
      exact fun h' => hn.2.2 _ h' _ List.mem_cons_self rfl
    have hg : get f e.1 = none := by
      cases hge : get f e.1 with
      | none => rfl
      | some o => exact absurd ((h0.1 e.1).1 (by simp [hge])) hne
    obtain ⟨b, hb, hm⟩ := hs f hg
    have h1 : ExactlyOn (fun _ => S) n (put f e.1 (.dset b [])) (es0 ++ [e]) := by
      constructor
      · intro m
        by_cases hm : m = e.1
        · subst hm
          simp
        · rw [get_put_ne f hm, h0.1 m]
          simp [hm]
      · intro e' he'
        rw [List.mem_append, List.mem_singleton] at he'
        rcases he' with he' | rfl
        · have hne' : e'.1 ≠ e.1 := fun h' => hne (h' ▸ List.mem_map_of_mem he')
          rw [get_put_ne f hne']
          exact h0.2 e' he'
        · exact ⟨b, get_put_self _ _ _, hm⟩
    obtain ⟨f', hf, hx⟩ := ih h1 (by simpa using hn)
    refine ⟨f', ?_, by simpa using hx⟩
    rw [steps_cons, hb]
    exact hf

theorem steps_later {S : ℕ → Prop} {n : ℕ × ℕ × ℕ} {ss : List (File → Res File)} {es : List (Name × Entry)} (h : List.Forall₂ (FillsLater S n) ss es) :
    ∀ {f : File} {all : List (Name × Entry)} {T : Name → ℕ → Prop}, ExactlyOn T n f all → (all.map (·.1)).Nodup → es ⊆ all → (es.map (·.1)).Nodup →
      ∃ f', steps ss f = .ok f' ∧ ExactlyOn (fun m y => T m y ∨ (m ∈ es.map (·.1) ∧ S y)) n f' all := by
  induction h with
  | nil =>
    intro f all T h0 _ _ _
    exact ⟨f, rfl, by simpa using h0⟩
  | @cons s e ss es hs _ ih =>
    intro f all T h0 hna hsub hn
    have hmem : e ∈ all := hsub List.mem_cons_self
    obtain ⟨a, ha, hma⟩ := h0.2 e hmem
    obtain ⟨b, f1, hb, hget, hm⟩ := hs f a _ ha hma
    have h1 : ExactlyOn (fun m y => T m y ∨ (m = e.1 ∧ S y)) n f1 all := by
      constructor
      · intro m
        rw [hget m]
        split_ifs with hm'
        · subst hm'
          simpa using ⟨e.2, hmem⟩
        · exact h0.1 m
      · intro e' he'
        rw [hget e'.1]
        by_cases hee : e'.1 = e.1
        · have : e' = e := by
            have := List.inj_on_of_nodup_map hna he' hmem hee
            exact this
          subst this
          refine ⟨b, if_pos rfl, ?_⟩
          simpa using hm
        · rw [if_neg hee]
          simpa [hee] using h0.2 e' he'
    have hnot : e.1 ∉ es.map (·.1) := (List.nodup_cons.1 hn).1
    obtain ⟨f2, hf2, hx⟩ := ih h1 hna (fun x hx => hsub (List.mem_cons_of_mem _ hx)) (List.nodup_cons.1 hn).2
    refine ⟨f2, by rw [steps_cons, hb]; exact hf2, ?_⟩
    have : (fun m y => (T m y ∨ (m = e.1 ∧ S y)) ∨ (m ∈ es.map (·.1) ∧ S y)) = fun m y => T m y ∨ (m ∈ (e :: es).map (·.1) ∧ S y) := by
      funext m y
      simp only [List.map_cons, List.mem_cons]
      exact propext (by tauto)
    rw [← this]
    exact hx

/-- All processes: the master makes the file, the others fill in their rows. -/
theorem turn_exactly (n : ℕ × ℕ × ℕ) (S : Fin P → ℕ → Prop) (es : List (Name × Entry)) (hnd : (es.map (·.1)).Nodup) (ss : Fin P → List (File → Res File))
    (h0 : ∀ r, r.val = 0 → List.Forall₂ (FillsFirst (S r) n) (ss r) es) (h1 : ∀ r, r.val ≠ 0 → List.Forall₂ (FillsLater (S r) n) (ss r) es)
    (run : Fin P → Option File → Res (Option File)) (hrun : ∀ r old, run r old = ((createP (r.val == 0) old).bind (steps (ss r))).map some)
    (hP : 0 < P) (hall : ∀ y < n.1, ∃ r, S r y) (old : Option File) :
    ∃ f, (List.finRange P).foldl (fun (res : Res (Option File)) r => res.bind (run r)) (Except.ok old) = .ok (some f) ∧ Exactly n f es := by
  have later : ∀ (l : List (Fin P)), (∀ r ∈ l, r.val ≠ 0) → ∀ (f : File) (T : ℕ → Prop), ExactlyOn (fun _ => T) n f es →
      ∃ f', l.foldl (fun (res : Res (Option File)) r => res.bind (run r)) (Except.ok (some f)) = .ok (some f') ∧ ExactlyOn (fun _ y => T y ∨ ∃ r ∈ l, S r y) n f' es := by
    intro l
    induction l with
    | nil => intro _ f T h; exact ⟨f, rfl, by simpa using h⟩
    | cons r l ih =>
      intro hl f T h
      have hr := hl r List.mem_cons_self
      obtain ⟨f1, hf1, hx1⟩ := steps_later (h1 r hr) h hnd (fun _ h => h) hnd
      have hx1' : ExactlyOn (fun _ y => T y ∨ S r y) n f1 es := by
        refine ⟨hx1.1, fun e he => ?_⟩
        have := hx1.2 e he
        have hm : e.1 ∈ es.map (·.1) := List.mem_map_of_mem he
        simpa only [hm, true_and] using this
      obtain ⟨f2, hf2, hx2⟩ := ih (fun r' h' => hl r' (List.mem_cons_of_mem _ h')) f1 _ hx1'
      refine ⟨f2, ?_, ?_⟩
      · rw [List.foldl_cons]
        change List.foldl _ (run r (some f)) l = _
        rw [hrun, show (r.val == 0) = false by simpa using hr]
        change List.foldl _ (Except.map some (steps (ss r) f)) l = _
        rw [hf1]
        exact hf2
      · have : (fun (_ : Name) y => (T y ∨ S r y) ∨ ∃ r' ∈ l, S r' y) = fun _ y => T y ∨ ∃ r' ∈ r :: l, S r' y := by
          funext _ y
          simp only [List.mem_cons, exists_eq_or_imp]
          exact propext (by tauto)
        rw [← this]
        exact hx2
  obtain ⟨k, rfl⟩ : ∃ k, P = k + 1 := ⟨P - 1, by omega⟩
  have nil : ExactlyOn (fun _ => S 0) n [] [] := ⟨fun m => by simp [get], fun e he => by simp at he⟩
  obtain ⟨f0, hf0, hx0⟩ := steps_first (h0 0 rfl) nil (by simpa using hnd)
  rw [List.nil_append] at hx0
  obtain ⟨f, hf, hx⟩ := later ((List.finRange k).map Fin.succ) (by simp) f0 _ hx0
  refine ⟨f, ?_, hx.1, fun e he => ?_⟩
  · rw [List.finRange_succ, List.foldl_cons]
    change List.foldl _ (run 0 old) _ = _
    rw [hrun]
    change List.foldl _ (Except.map some (steps (ss 0) [])) _ = _
    rw [hf0]
    exact hf
  · obtain ⟨a, ha, hm⟩ := hx.2 e he
    refine ⟨a, [], ha, ?_⟩
    obtain ⟨nm, en⟩ := e
    cases en with
    | grid v =>
      obtain ⟨hd, d, hc, hval⟩ := hm
      refine ⟨hd, d, hc, fun t g1 g2 g3 => hval t g1 g2 g3 ?_⟩
      obtain ⟨r, hr⟩ := hall t.1 g1
      by_cases h0 : r = 0
      · exact Or.inl (h0 ▸ hr)
      · right
        obtain ⟨j, rfl⟩ := Fin.exists_succ_eq.2 h0
        exact ⟨_, List.mem_map_of_mem (List.mem_finRange j), hr⟩
    | table dims vals => exact hm
    | text s => exact hm

/-! ## The steps -/

theorem slab_first (n : ℕ × ℕ × ℕ) (ys l : ℕ) (hb : 0 < l → ys + l ≤ n.1) (stride : ℕ) (hs : 1 ≤ stride) (data c0 : ℕ → ℝ) (name : Name)
    (v : ℕ × ℕ × ℕ → ℝ) (hv : ∀ t : ℕ × ℕ × ℕ, t.1 < n.1 → t.2.1 < n.2.1 → t.2.2 < n.2.2 → ys ≤ t.1 → t.1 < ys + l →
      data ((((t.1 - ys) * n.2.1 + t.2.1) * n.2.2 + t.2.2) * stride) = v t) :
    FillsFirst (fun y => ys ≤ y ∧ y < ys + l) n (fun f => (createDatasetP true f name none (firstDims (fieldRank n) n)).bind fun f =>
      writeData f name (firstDims (fieldRank n) (l, n.2)) (firstDims (fieldRank n) (ys, 0, 0)) stride data c0) (name, .grid v) := by
  intro f hf
  dsimp only at hf ⊢
  have he : datasetExists f name = false := by simp [datasetExists, hf]
  have hl : (gridDims n).length > 0 := List.length_pos_iff.2 (gridDims_ne n)
  have hc : createDatasetP true f name none (firstDims (fieldRank n) n) = .ok (put f name (.dset ⟨gridDims n, .num fun _ => 0⟩ [])) := by
    rw [firstDims_gridDims]
    simp [createDatasetP, he, hl, hf, writeStringAttrP]
  rw [hc]
  obtain ⟨b, hb1, hb2⟩ := writeData_block n ys l hb stride hs data c0 name v hv (put f name (.dset ⟨gridDims n, .num fun _ => 0⟩ []))
    ⟨gridDims n, .num fun _ => 0⟩ (fun _ => False) (get_put_self _ _ _) ⟨rfl, _, rfl, fun t _ _ _ h => h.elim⟩
  refine ⟨b, ?_, by simpa using hb2⟩
  rw [put_put] at hb1
  exact hb1

theorem slab_later (n : ℕ × ℕ × ℕ) (ys l : ℕ) (hb : 0 < l → ys + l ≤ n.1) (stride : ℕ) (hs : 1 ≤ stride) (data c0 : ℕ → ℝ) (name : Name)
    (v : ℕ × ℕ × ℕ → ℝ) (hv : ∀ t : ℕ × ℕ × ℕ, t.1 < n.1 → t.2.1 < n.2.1 → t.2.2 < n.2.2 → ys ≤ t.1 → t.1 < ys + l →
      data ((((t.1 - ys) * n.2.1 + t.2.1) * n.2.2 + t.2.2) * stride) = v t) :
    FillsLater (fun y => ys ≤ y ∧ y < ys + l) n (fun f => (createDatasetP false f name none (firstDims (fieldRank n) n)).bind fun f =>
      writeData f name (firstDims (fieldRank n) (l, n.2)) (firstDims (fieldRank n) (ys, 0, 0)) stride data c0) (name, .grid v) := by
  intro f a T hf ha
  dsimp only at hf ha ⊢
  have he : datasetExists f name = true := by simp [datasetExists, hf]
  have hl : (gridDims n).length > 0 := List.length_pos_iff.2 (gridDims_ne n)
  have hc : createDatasetP false f name none (firstDims (fieldRank n) n) = .ok f := by
    rw [firstDims_gridDims]
    simp [createDatasetP, he, hl, writeStringAttrP]
  rw [hc]
  obtain ⟨b, hb1, hb2⟩ := writeData_block n ys l hb stride hs data c0 name v hv f a T hf ha
  refine ⟨b, _, hb1, fun m => ?_, hb2⟩
  split_ifs with hm
  · subst hm
    exact get_put_self _ _ _
  · exact get_put_ne f hm _

theorem table_first (S : ℕ → Prop) (n : ℕ × ℕ × ℕ) (name : Name) (h : name ≠ []) (val : ℕ → ℝ) (dims : List ℕ) :
    FillsFirst S n (fun f => writeDataAttrP true f .file (some name) val dims) (name, .table dims ((List.range dims.prod).map val)) := by
  intro f hf
  obtain ⟨b, h1, h2⟩ := adds_table n name h val dims f hf
  exact ⟨b, h1, h2⟩

theorem text_first (S : ℕ → Prop) (n : ℕ × ℕ × ℕ) (name s : List Char) (h : name ≠ []) (hs : s ≠ []) :
    FillsFirst S n (fun f => writeStringAttrP true f .file (some name) (some s)) (name, .text s) := by
  intro f hf
  obtain ⟨b, h1, h2⟩ := adds_text n name s h hs f hf
  exact ⟨b, h1, h2⟩

theorem same_later (S : ℕ → Prop) (n : ℕ × ℕ × ℕ) (s : File → Res File) (hs : ∀ f, s f = .ok f) (name : Name) (e : Entry) (he : ∀ v, e ≠ .grid v) :
    FillsLater S n s (name, e) := by
  intro f a T hf ha
  refine ⟨a, f, hs f, fun m => ?_, ?_⟩
  · split_ifs with hm
    · subst hm
      exact hf
    · rfl
  · cases e with
    | grid v => exact absurd rfl (he v)
    | table dims vals => exact ha
    | text s => exact ha

/-- What a step of process `r` does. -/
def Fills (master : Bool) (S : ℕ → Prop) (n : ℕ × ℕ × ℕ) (s : File → Res File) (e : Name × Entry) : Prop :=
  if master then FillsFirst S n s e else FillsLater S n s e

theorem fills_slab (master : Bool) (n : ℕ × ℕ × ℕ) (ys l : ℕ) (hb : 0 < l → ys + l ≤ n.1) (stride : ℕ) (hs : 1 ≤ stride) (data c0 : ℕ → ℝ) (name : Name)
    (v : ℕ × ℕ × ℕ → ℝ) (hv : ∀ t : ℕ × ℕ × ℕ, t.1 < n.1 → t.2.1 < n.2.1 → t.2.2 < n.2.2 → ys ≤ t.1 → t.1 < ys + l →
      data ((((t.1 - ys) * n.2.1 + t.2.1) * n.2.2 + t.2.2) * stride) = v t) :
    Fills master (fun y => ys ≤ y ∧ y < ys + l) n (fun f => (createDatasetP master f name none (firstDims (fieldRank n) n)).bind fun f =>
      writeData f name (firstDims (fieldRank n) (l, n.2)) (firstDims (fieldRank n) (ys, 0, 0)) stride data c0) (name, .grid v) := by
  cases master
  · exact slab_later n ys l hb stride hs data c0 name v hv
  · exact slab_first n ys l hb stride hs data c0 name v hv

theorem fills_table (master : Bool) (S : ℕ → Prop) (n : ℕ × ℕ × ℕ) (name : Name) (h : name ≠ []) (val : ℕ → ℝ) (dims : List ℕ) (vals : List ℝ)
    (hv : (List.range dims.prod).map val = vals) :
    Fills master S n (fun f => writeDataAttrP master f .file (some name) val dims) (name, .table dims vals) := by
  subst hv
  cases master
  · exact same_later S n _ (fun f => by simp [writeDataAttrP, writeAttrP]) _ _ (by simp)
  · exact table_first S n name h val dims

theorem fills_text (master : Bool) (S : ℕ → Prop) (n : ℕ × ℕ × ℕ) (name s : List Char) (h : name ≠ []) (hs : s ≠ []) :
    Fills master S n (fun f => writeStringAttrP master f .file (some name) (some s)) (name, .text s) := by
  cases master
  · exact same_later S n _ (fun f => by simp [writeStringAttrP, writeAttrP]) _ _ (by simp)
  · exact text_first S n name s h hs

theorem forall_fills {master : Bool} {S : ℕ → Prop} {n : ℕ × ℕ × ℕ} {ss : List (File → Res File)} {es : List (Name × Entry)}
    (h : List.Forall₂ (Fills master S n) ss es) :
    (master = true → List.Forall₂ (FillsFirst S n) ss es) ∧ (master = false → List.Forall₂ (FillsLater S n) ss es) :=
  ⟨fun hm => by subst hm; exact h, fun hm => by subst hm; exact h⟩

/-! ## What the processes hold -/

theorem bloch_exchange (k : ℝ × ℝ × ℝ) (n t : ℕ × ℕ × ℕ) : IO.Spec.bloch (k.2.1, k.1, k.2.2) (n.2.1, n.1, n.2.2) (t.2.1, t.1, t.2.2) = IO.Spec.bloch k n t := by
  unfold IO.Spec.bloch
  congr 1
  ring

theorem outputK_exchange {o : OutP P} {s : Out} (h : SameOut o s) : o.outputK = ((wave s).2.1, (wave s).1, (wave s).2.2) := by
  unfold OutP.outputK wave V3.dot
  rw [h.type, h.R, h.currentK]
  simp only [List.mem_cons, List.not_mem_nil, or_false]
  split_ifs <;> rfl

theorem exchanged_names (es : List (Name × Entry)) : (exchanged es).map (·.1) = es.map (·.1) := by
  simp [exchanged, Function.comp_def]

theorem inside {o : OutP P} {s : Out} (h : SameOut o s) (r : Fin P) : 0 < o.ly.size r → o.ly.start r + o.ly.size r ≤ o.dims.1 := h.rows.inside r

/-- The numbers of a component held by a process. -/
theorem comp_values {o : OutP P} {s : Out} (h : SameOut o s) (r : Fin P) (c ri : ℕ) (hc : c < 3) (hri : ri < 2) (t : ℕ × ℕ × ℕ) (_ : t.1 < o.dims.1)
    (h2 : t.2.1 < o.dims.2.1) (h3 : t.2.2 < o.dims.2.2) (h4 : o.ly.start r ≤ t.1) (h5 : t.1 < o.ly.start r + o.ly.size r) :
    asReal (mulPhase o.dims (o.localDims r) (o.start r) o.outputK (o.field r))
      (2 * c + ri + (((t.1 - o.ly.start r) * o.dims.2.1 + t.2.1) * o.dims.2.2 + t.2.2) * (2 * 3)) = part ri (value s c (t.2.1, t.1, t.2.2)) := by
  have hphase := (mulPhase_spec o.dims (o.localDims r) (o.start r) o.outputK (o.field r)).1 (t.1 - o.ly.start r, t.2) (by simp only [OutP.localDims]; omega) h2 h3
    ((((t.1 - o.ly.start r) * o.dims.2.1 + t.2.1) * o.dims.2.2 + t.2.2) * 3 + c)
    (by
      change _ = ((t.1 - o.ly.start r) * o.dims.2.1 + t.2.1) * o.dims.2.2 + t.2.2
      omega)
  have hfield := h.field r (t.1 - o.ly.start r) (by omega) t.2.1 h2 t.2.2 h3 c hc
  rw [show o.ly.start r + (t.1 - o.ly.start r) = t.1 by omega] at hfield
  have hval : mulPhase o.dims (o.localDims r) (o.start r) o.outputK (o.field r)
      ((((t.1 - o.ly.start r) * o.dims.2.1 + t.2.1) * o.dims.2.2 + t.2.2) * 3 + c) = value s c (t.2.1, t.1, t.2.2) := by
    rw [hphase, mul_comm _ 3]
    refine (congrArg (· * _) hfield).trans ?_
    unfold value
    rw [outputK_exchange h, ← h.n, mul_comm 3]
    congr 1
    have := bloch_exchange (wave s) o.n (t.2.1, t.1, t.2.2)
    rw [← this]
    congr 1
    simp only [OutP.start, zero_add]
    exact Prod.ext (by simp only; omega) rfl
  rw [← hval]
  generalize ((t.1 - o.ly.start r) * o.dims.2.1 + t.2.1) * o.dims.2.2 + t.2.2 = m
  unfold asReal part
  rw [show 2 * c + ri + m * (2 * 3) = 2 * (m * 3 + c) + ri by ring, show (2 * (m * 3 + c) + ri) / 2 = m * 3 + c by omega,
    show (2 * (m * 3 + c) + ri) % 2 = ri by omega]

/-- The numbers of a scalar array held by a process. -/
theorem scalar_values {o : OutP P} {s : Out} (h : SameOut o s) {v : ℕ → ℝ} {vs : Fin P → ℕ → ℝ} (hv : TransposedPieces o.ly o.n.1 o.n.2.1 o.n.2.2 v vs)
    (r : Fin P) (t : ℕ × ℕ × ℕ) (h2 : t.2.1 < o.dims.2.1) (h3 : t.2.2 < o.dims.2.2) (h4 : o.ly.start r ≤ t.1)
    (h5 : t.1 < o.ly.start r + o.ly.size r) :
    vs r ((((t.1 - o.ly.start r) * o.dims.2.1 + t.2.1) * o.dims.2.2 + t.2.2) * 1) = v ((t.2.1 * s.n.2.1 + t.1) * s.n.2.2 + t.2.2) := by
  have := hv r (t.1 - o.ly.start r) (by omega) t.2.1 h2 t.2.2 h3
  rw [show o.ly.start r + (t.1 - o.ly.start r) = t.1 by omega] at this
  rw [mul_one, ← h.n]
  exact this

theorem fills_common {o : OutP P} {s : Out} (h : SameOut o s) (hd : s.description ≠ []) (master : Bool) (S : ℕ → Prop) :
    List.Forall₂ (fun st (e : Name × Entry) => Fills master S o.dims st (e.1, exchange e.2)) (finishP o master) (common s) := by
  refine .cons ?_ (.cons ?_ .nil)
  · refine fills_table master S o.dims _ (by decide) _ _ _ ?_
    rw [arrR_table]
    unfold OutP.outputR
    rw [h.R]
    simp [exchangeRows]
  · rw [← h.description] at hd ⊢
    exact fills_text master S o.dims _ _ (by decide) hd

theorem fills_vector {o : OutP P} {s : Out} (h : SameOut o s) (hd : s.description ≠ []) (which : ℤ) (c0 : ℕ → ℝ) (r : Fin P) (master : Bool) :
    List.Forall₂ (Fills master (fun y => o.ly.start r ≤ y ∧ y < o.ly.start r + o.ly.size r) o.dims)
      (complexStepsP master o.dims (o.localDims r) (o.start r) c0 which 3 o.outputK (o.field r) ++
        [fun f => writeDataAttrP master f .file (some "Bloch wavevector".toList) (arr3 o.outputK) [3]] ++ finishP o master)
      (exchanged (vectorFile s which)) := by
  unfold exchanged
  rw [List.forall₂_map_right_iff]
  unfold vectorFile
  refine List.rel_append (List.rel_append ?_ (.cons ?_ .nil)) (fills_common h hd master _)
  · unfold complexStepsP
    rw [show List.range 3 = [0, 1, 2] from rfl]
    simp only [List.flatMap_cons, List.flatMap_nil, List.append_nil, ← List.append_assoc]
    have fill : ∀ c < 3, ∀ ri < 2, Fills master (fun y => o.ly.start r ≤ y ∧ y < o.ly.start r + o.ly.size r) o.dims
        (writeCompP master o.dims (o.localDims r) (o.start r) c0 3 (mulPhase o.dims (o.localDims r) (o.start r) o.outputK (o.field r)) c ri)
        (compName 3 c ri, .grid fun t => part ri (value s c (t.2.1, t.1, t.2.2))) := fun c hc ri hri =>
      fills_slab master o.dims (o.ly.start r) (o.ly.size r) (inside h r) (2 * 3) (by norm_num) _ c0 _ _
        (fun t h1 h2 h3 h4 h5 => comp_values h r c ri hc hri t h1 h2 h3 h4 h5)
    have one : ∀ c < 3, ∀ (nr ni : Name), compName 3 c 0 = nr → compName 3 c 1 = ni →
        List.Forall₂ (fun st (e : Name × Entry) => Fills master (fun y => o.ly.start r ≤ y ∧ y < o.ly.start r + o.ly.size r) o.dims st (e.1, exchange e.2))
        (if (c : ℤ) = which ∨ which < 0 then [writeCompP master o.dims (o.localDims r) (o.start r) c0 3 (mulPhase o.dims (o.localDims r) (o.start r) o.outputK (o.field r)) c 0,
          writeCompP master o.dims (o.localDims r) (o.start r) c0 3 (mulPhase o.dims (o.localDims r) (o.start r) o.outputK (o.field r)) c 1] else [])
        (if which < 0 ∨ which = c then [(nr, .grid fun t => (value s c t).re), (ni, .grid fun t => (value s c t).im)] else []) := by
      intro c hc nr ni hr hi
      by_cases hw : (c : ℤ) = which ∨ which < 0
      · rw [if_pos hw, if_pos (by omega)]
        subst hr hi
        exact .cons (fill c hc 0 (by norm_num)) (.cons (fill c hc 1 (by norm_num)) .nil)
      · rw [if_neg hw, if_neg (by omega)]
        exact .nil
    exact List.rel_append (List.rel_append (one 0 (by norm_num) _ _ (by decide) (by decide)) (one 1 (by norm_num) _ _ (by decide) (by decide)))
      (one 2 (by norm_num) _ _ (by decide) (by decide))
  · refine fills_table master _ o.dims _ (by decide) _ _ _ ?_
    rw [arr3_table, outputK_exchange h]
    simp [exchangeRows]

theorem fills_scalar {o : OutP P} {s : Out} (h : SameOut o s) (hd : s.description ≠ []) (c0 : ℕ → ℝ) (r : Fin P) :
    List.Forall₂ (Fills (r.val == 0) (fun y => o.ly.start r ≤ y ∧ y < o.ly.start r + o.ly.size r) o.dims)
      ([writeScalarP (r.val == 0) o.dims (o.localDims r) (o.start r) c0 (o.vals r) "data".toList] ++
        (if o.type = 'n' then tensorStepsP o r c0 else []) ++ finishP o (r.val == 0))
      (exchanged (scalarFile s)) := by
  have sc : ∀ (v : ℕ → ℝ) (vs : Fin P → ℕ → ℝ) (name name' : Name), TransposedPieces o.ly o.n.1 o.n.2.1 o.n.2.2 v vs → name = name' →
      Fills (r.val == 0) (fun y => o.ly.start r ≤ y ∧ y < o.ly.start r + o.ly.size r) o.dims
        (writeScalarP (r.val == 0) o.dims (o.localDims r) (o.start r) c0 (vs r) name) (name', exchange (onGrid s v)) := by
    rintro v vs name _ hv rfl
    exact fills_slab _ o.dims (o.ly.start r) (o.ly.size r) (inside h r) 1 le_rfl (vs r) c0 name _
      (fun t _ h2 h3 h4 h5 => scalar_values h hv r t h2 h3 h4 h5)
  have scT : ∀ c1 c2 im inv (name name' : Name), name = name' →
      Fills (r.val == 0) (fun y => o.ly.start r ≤ y ∧ y < o.ly.start r + o.ly.size r) o.dims
        (writeScalarP (r.val == 0) o.dims (o.localDims r) (o.start r) c0 (o.tensor r c1 c2 im inv) name) (name', exchange (onGrid s (s.tensor c1 c2 im inv))) :=
    fun c1 c2 im inv name name' hn => sc _ (fun r => o.tensor r c1 c2 im inv) name name' (h.tensor c1 c2 im inv) hn
  have hten : List.Forall₂ (fun st (e : Name × Entry) => Fills (r.val == 0) (fun y => o.ly.start r ≤ y ∧ y < o.ly.start r + o.ly.size r) o.dims st
      (e.1, exchange e.2)) (tensorStepsP o r c0) (tensors s) := by
    have r3 : List.range 3 = [0, 1, 2] := rfl
    have f0 : ([0, 1, 2] : List ℕ).filter (0 ≤ ·) = [0, 1, 2] := by decide
    have f1 : ([0, 1, 2] : List ℕ).filter (1 ≤ ·) = [1, 2] := by decide
    have f2 : ([0, 1, 2] : List ℕ).filter (2 ≤ ·) = [2] := by decide
    unfold tensorStepsP tensors
    simp only [r3, f0, f1, f2, List.flatMap_cons, List.flatMap_nil, List.append_nil, h.hermitian]
    cases s.hermitian
    · simp only [Bool.false_eq_true, false_and, if_false, List.append_nil, List.nil_append, List.cons_append]
      repeat first | exact .nil | (refine .cons ?_ ?_; · exact scT _ _ _ _ _ _ (by dsimp only; decide))
    · simp only [true_and, if_true, ne_eq, not_true_eq_false, if_false, List.append_nil, List.nil_append, List.cons_append, zero_ne_one, one_ne_zero,
        OfNat.zero_ne_ofNat, OfNat.one_ne_ofNat, OfNat.ofNat_ne_zero, OfNat.ofNat_ne_one, not_false_eq_true]
      repeat first | exact .nil | (refine .cons ?_ ?_; · exact scT _ _ _ _ _ _ (by dsimp only; decide))
  unfold exchanged
  rw [List.forall₂_map_right_iff]
  unfold scalarFile
  refine List.rel_append (List.rel_append (.cons ?_ .nil) ?_) (fills_common h hd _ _)
  · exact sc _ _ _ _ h.vals rfl
  · rw [h.type]
    split_ifs
    · exact hten
    · exact .nil

/-- C121, without parallel HDF5: for every vector field, number of processes and distribution of the rows, including processes that hold nothing, and
whatever was in the file before, the processes, one after the other, write the file that one process would write with the first two directions exchanged. -/
theorem C121_vector_in_turn {o : OutP P} {s : Out} (h : SameOut o s) (hP : 0 < P) (ht : s.type ∈ ['d', 'h', 'b', 'e', 'c', 'v']) (hd : s.description ≠ [])
    (which : ℤ) (c0 : ℕ → ℝ) (old : Option File) :
    ∃ f, outputInTurn o which c0 old = .ok (some f) ∧ Exactly (s.n.2.1, s.n.1, s.n.2.2) f (exchanged (vectorFile s which)) := by
  have hnd : ((exchanged (vectorFile s which)).map (·.1)).Nodup := by
    rw [exchanged_names]
    unfold vectorFile common
    split_ifs <;> simp only [List.map_append, List.map_cons, List.map_nil] <;> decide
  rw [← h.n]
  refine turn_exactly o.dims (fun r y => o.ly.start r ≤ y ∧ y < o.ly.start r + o.ly.size r) _ hnd
    (fun r => complexStepsP (r.val == 0) o.dims (o.localDims r) (o.start r) c0 which 3 o.outputK (o.field r) ++
      [fun f => writeDataAttrP (r.val == 0) f .file (some "Bloch wavevector".toList) (arr3 o.outputK) [3]] ++ finishP o (r.val == 0))
    (fun r hr => (forall_fills (fills_vector h hd which c0 r _)).1 (by simpa using hr))
    (fun r hr => (forall_fills (fills_vector h hd which c0 r _)).2 (by simpa using hr))
    (outputRank o which c0) (fun r old => ?_) hP (fun y hy => (h.rows.owner y hy).exists) old
  unfold outputRank
  simp only
  rw [if_pos (h.type ▸ ht)]

/-- C121, without parallel HDF5, for real scalar fields, with the tensors for epsilon. -/
theorem C121_scalar_in_turn {o : OutP P} {s : Out} (h : SameOut o s) (hP : 0 < P) (ht : s.type ∈ ['D', 'H', 'B', 'n', 'm', 'R']) (hd : s.description ≠ [])
    (which : ℤ) (c0 : ℕ → ℝ) (old : Option File) :
    ∃ f, outputInTurn o which c0 old = .ok (some f) ∧ Exactly (s.n.2.1, s.n.1, s.n.2.2) f (exchanged (scalarFile s)) := by
  have hv : o.type ∉ ['d', 'h', 'b', 'e', 'c', 'v'] := by
    rw [h.type]
    simp only [List.mem_cons, List.not_mem_nil, or_false] at ht
    rcases ht with h | h | h | h | h | h <;> rw [h] <;> decide
  have hC : o.type ∉ ['C'] := by
    rw [h.type]
    simp only [List.mem_cons, List.not_mem_nil, or_false] at ht
    rcases ht with h | h | h | h | h | h <;> rw [h] <;> decide
  have hnd : ((exchanged (scalarFile s)).map (·.1)).Nodup := by
    rw [exchanged_names]
    unfold scalarFile common tensors
    split_ifs <;> cases s.hermitian <;> simp only [List.map_append, List.map_cons, List.map_nil, if_true, Bool.false_eq_true, if_false] <;> decide
  rw [← h.n]
  refine turn_exactly o.dims (fun r y => o.ly.start r ≤ y ∧ y < o.ly.start r + o.ly.size r) _ hnd
    (fun r => [writeScalarP (r.val == 0) o.dims (o.localDims r) (o.start r) c0 (o.vals r) "data".toList] ++
        (if o.type = 'n' then tensorStepsP o r c0 else []) ++ finishP o (r.val == 0))
    (fun r hr => (forall_fills (fills_scalar h hd c0 r)).1 (by simpa using hr))
    (fun r hr => (forall_fills (fills_scalar h hd c0 r)).2 (by simpa using hr))
    (outputRank o which c0) (fun r old => ?_) hP (fun y hy => (h.rows.owner y hy).exists) old
  unfold outputRank
  simp only
  rw [if_neg hv, if_neg hC, if_pos (h.type ▸ ht)]

/-! ## All processes together -/

theorem writeBlocks_spec {o : OutP P} (hin : ∀ r, 0 < o.ly.size r → o.ly.start r + o.ly.size r ≤ o.dims.1) (stride : ℕ) (hs : 1 ≤ stride)
    (data : Fin P → ℕ → ℝ) (c0 : ℕ → ℝ) (name : Name) (v : ℕ × ℕ × ℕ → ℝ)
    (hv : ∀ r, ∀ t : ℕ × ℕ × ℕ, t.1 < o.dims.1 → t.2.1 < o.dims.2.1 → t.2.2 < o.dims.2.2 → o.ly.start r ≤ t.1 → t.1 < o.ly.start r + o.ly.size r →
      data r ((((t.1 - o.ly.start r) * o.dims.2.1 + t.2.1) * o.dims.2.2 + t.2.2) * stride) = v t) (f : File) :
    ∀ (l : List (Fin P)) (a : Arr) (T : ℕ → Prop), MeetsOn T o.dims (.grid v) a →
      ∃ b, writeBlocks l name o.dims o.localDims o.start stride data c0 (put f name (.dset a [])) = .ok (put f name (.dset b [])) ∧
        MeetsOn (fun y => T y ∨ ∃ r ∈ l, o.ly.start r ≤ y ∧ y < o.ly.start r + o.ly.size r) o.dims (.grid v) b := by
  intro l
  induction l with
  | nil => intro a T ha; exact ⟨a, rfl, by simpa using ha⟩
  | cons r l ih =>
    intro a T ha
    obtain ⟨b, hb1, hb2⟩ := writeData_block o.dims (o.ly.start r) (o.ly.size r) (hin r) stride hs (data r) c0 name v (hv r) (put f name (.dset a [])) a T
      (get_put_self _ _ _) ha
    rw [put_put] at hb1
    obtain ⟨b', hb1', hb2'⟩ := ih b _ hb2
    refine ⟨b', ?_, ?_⟩
    · unfold writeBlocks
      rw [List.map_cons, steps_cons]
      refine (congrArg (fun x : Res File => x.bind _) hb1).trans ?_
      exact hb1'
    · have : (fun y => (T y ∨ (o.ly.start r ≤ y ∧ y < o.ly.start r + o.ly.size r)) ∨ ∃ r ∈ l, o.ly.start r ≤ y ∧ y < o.ly.start r + o.ly.size r) =
          fun y => T y ∨ ∃ r' ∈ r :: l, o.ly.start r' ≤ y ∧ y < o.ly.start r' + o.ly.size r' := by
        funext y
        simp only [List.mem_cons, exists_eq_or_imp]
        exact propext (by tauto)
      rw [← this]
      exact hb2'

theorem adds_blocks {o : OutP P} {s : Out} (h : SameOut o s) (l : List (Fin P)) (hl : ∀ r, r ∈ l) (stride : ℕ) (hs : 1 ≤ stride)
    (data : Fin P → ℕ → ℝ) (c0 : ℕ → ℝ) (name : Name) (v : ℕ × ℕ × ℕ → ℝ)
    (hv : ∀ r, ∀ t : ℕ × ℕ × ℕ, t.1 < o.dims.1 → t.2.1 < o.dims.2.1 → t.2.2 < o.dims.2.2 → o.ly.start r ≤ t.1 → t.1 < o.ly.start r + o.ly.size r →
      data r ((((t.1 - o.ly.start r) * o.dims.2.1 + t.2.1) * o.dims.2.2 + t.2.2) * stride) = v t) :
    Adds o.dims (fun f => (createDataset f name none (firstDims (fieldRank o.dims) o.dims)).bind
      (writeBlocks l name o.dims o.localDims o.start stride data c0)) (name, .grid v) := by
  intro f hf
  dsimp only at hf ⊢
  rw [firstDims_gridDims, createDataset_new hf (gridDims_ne _)]
  obtain ⟨b, hb1, hd, d, hc, hval⟩ := writeBlocks_spec (inside h) stride hs data c0 name v hv f l ⟨gridDims o.dims, .num fun _ => 0⟩ (fun _ => False)
    ⟨rfl, _, rfl, fun t _ _ _ h => h.elim⟩
  refine ⟨b, hb1, hd, d, hc, fun t h1 h2 h3 => hval t h1 h2 h3 (Or.inr ?_)⟩
  obtain ⟨r, hr, -⟩ := h.rows.owner t.1 h1
  exact ⟨r, hl r, hr⟩

theorem adds_common_together {o : OutP P} {s : Out} (h : SameOut o s) (hd : s.description ≠ []) :
    List.Forall₂ (fun st (e : Name × Entry) => Adds o.dims st (e.1, exchange e.2)) (finishC o) (common s) := by
  refine .cons ?_ (.cons ?_ .nil)
  · have := adds_table o.dims "lattice vectors".toList (by decide) (arrR o.outputR) [3, 3]
    rw [arrR_table] at this
    unfold OutP.outputR at this
    rw [h.R] at this
    unfold OutP.outputR
    rw [h.R]
    simpa [exchange, exchangeRows] using this
  · rw [← h.description] at hd ⊢
    exact adds_text o.dims _ _ (by decide) hd

/-- C121, with parallel HDF5: the same file for every vector field, in whatever order the blocks of each dataset arrive. -/
theorem C121_vector_together {o : OutP P} {s : Out} (h : SameOut o s) (order : Name → List (Fin P)) (ho : ∀ m, (order m).Perm (List.finRange P))
    (ht : s.type ∈ ['d', 'h', 'b', 'e', 'c', 'v']) (hd : s.description ≠ []) (which : ℤ) (c0 : ℕ → ℝ) (old : Option File) :
    ∃ f, outputTogether order o which c0 old = .ok (some f) ∧ Exactly (s.n.2.1, s.n.1, s.n.2.2) f (exchanged (vectorFile s which)) := by
  have hall : ∀ m r, r ∈ order m := fun m r => (ho m).mem_iff.2 (List.mem_finRange r)
  have hnd : ((([] : List (Name × Entry)) ++ exchanged (vectorFile s which)).map (·.1)).Nodup := by
    rw [List.nil_append, exchanged_names]
    unfold vectorFile common
    split_ifs <;> simp only [List.map_append, List.map_cons, List.map_nil] <;> decide
  have hadd : List.Forall₂ (Adds o.dims) (((List.range 3).flatMap fun (comp : ℕ) => if (comp : ℤ) = which ∨ which < 0 then
      [writeCompC order o c0 (fun r => mulPhase o.dims (o.localDims r) (o.start r) o.outputK (o.field r)) comp 0,
        writeCompC order o c0 (fun r => mulPhase o.dims (o.localDims r) (o.start r) o.outputK (o.field r)) comp 1] else []) ++
      [fun f => writeDataAttr f .file (some "Bloch wavevector".toList) (arr3 o.outputK) [3]] ++ finishC o) (exchanged (vectorFile s which)) := by
    unfold exchanged
    rw [List.forall₂_map_right_iff]
    unfold vectorFile
    refine List.rel_append (List.rel_append ?_ (.cons ?_ .nil)) (adds_common_together h hd)
    · rw [show List.range 3 = [0, 1, 2] from rfl]
      simp only [List.flatMap_cons, List.flatMap_nil, List.append_nil, ← List.append_assoc]
      have fill : ∀ c < 3, ∀ ri < 2, Adds o.dims
          (writeCompC order o c0 (fun r => mulPhase o.dims (o.localDims r) (o.start r) o.outputK (o.field r)) c ri)
          (compName 3 c ri, .grid fun t => part ri (value s c (t.2.1, t.1, t.2.2))) := fun c hc ri hri =>
        adds_blocks h (order (compName 3 c ri)) (hall _) (2 * 3) (by norm_num) _ c0 _ _
          (fun r t h1 h2 h3 h4 h5 => comp_values h r c ri hc hri t h1 h2 h3 h4 h5)
      have one : ∀ c < 3, ∀ (nr ni : Name), compName 3 c 0 = nr → compName 3 c 1 = ni →
          List.Forall₂ (fun st (e : Name × Entry) => Adds o.dims st (e.1, exchange e.2))
          (if (c : ℤ) = which ∨ which < 0 then [writeCompC order o c0 (fun r => mulPhase o.dims (o.localDims r) (o.start r) o.outputK (o.field r)) c 0,
            writeCompC order o c0 (fun r => mulPhase o.dims (o.localDims r) (o.start r) o.outputK (o.field r)) c 1] else [])
          (if which < 0 ∨ which = c then [(nr, .grid fun t => (value s c t).re), (ni, .grid fun t => (value s c t).im)] else []) := by
        intro c hc nr ni hr hi
        by_cases hw : (c : ℤ) = which ∨ which < 0
        · rw [if_pos hw, if_pos (by omega)]
          subst hr hi
          exact .cons (fill c hc 0 (by norm_num)) (.cons (fill c hc 1 (by norm_num)) .nil)
        · rw [if_neg hw, if_neg (by omega)]
          exact .nil
      exact List.rel_append (List.rel_append (one 0 (by norm_num) _ _ (by decide) (by decide)) (one 1 (by norm_num) _ _ (by decide) (by decide)))
        (one 2 (by norm_num) _ _ (by decide) (by decide))
    · have := adds_table o.dims "Bloch wavevector".toList (by decide) (arr3 o.outputK) [3]
      rw [arr3_table] at this
      rw [outputK_exchange h] at this ⊢
      simpa [exchange, exchangeRows] using this
  obtain ⟨f, hf, hx⟩ := steps_exactly hadd (exactly_nil o.dims) hnd
  rw [← h.n]
  refine ⟨f, ?_, hx⟩
  unfold outputTogether
  simp only
  rw [if_pos (h.type ▸ ht), show create old = [] from rfl, hf]
  rfl

/-- C121, with parallel HDF5, for real scalar fields, with the tensors for epsilon. -/
theorem C121_scalar_together {o : OutP P} {s : Out} (h : SameOut o s) (order : Name → List (Fin P)) (ho : ∀ m, (order m).Perm (List.finRange P))
    (ht : s.type ∈ ['D', 'H', 'B', 'n', 'm', 'R']) (hd : s.description ≠ []) (which : ℤ) (c0 : ℕ → ℝ) (old : Option File) :
    ∃ f, outputTogether order o which c0 old = .ok (some f) ∧ Exactly (s.n.2.1, s.n.1, s.n.2.2) f (exchanged (scalarFile s)) := by
  have hall : ∀ m r, r ∈ order m := fun m r => (ho m).mem_iff.2 (List.mem_finRange r)
  have hv : o.type ∉ ['d', 'h', 'b', 'e', 'c', 'v'] := by
    rw [h.type]
    simp only [List.mem_cons, List.not_mem_nil, or_false] at ht
    rcases ht with h | h | h | h | h | h <;> rw [h] <;> decide
  have hnd : ((([] : List (Name × Entry)) ++ exchanged (scalarFile s)).map (·.1)).Nodup := by
    rw [List.nil_append, exchanged_names]
    unfold scalarFile common tensors
    split_ifs <;> cases s.hermitian <;> simp only [List.map_append, List.map_cons, List.map_nil, if_true, Bool.false_eq_true, if_false] <;> decide
  have sc : ∀ (v : ℕ → ℝ) (vs : Fin P → ℕ → ℝ) (name name' : Name), TransposedPieces o.ly o.n.1 o.n.2.1 o.n.2.2 v vs → name = name' →
      Adds o.dims (writeScalarC order o c0 vs name) (name', exchange (onGrid s v)) := by
    rintro v vs name _ hv rfl
    exact adds_blocks h (order name) (hall _) 1 le_rfl vs c0 name _ (fun r t _ h2 h3 h4 h5 => scalar_values h hv r t h2 h3 h4 h5)
  have scT : ∀ c1 c2 im inv (name name' : Name), name = name' →
      Adds o.dims (writeScalarC order o c0 (fun r => o.tensor r c1 c2 im inv) name) (name', exchange (onGrid s (s.tensor c1 c2 im inv))) :=
    fun c1 c2 im inv name name' hn => sc _ (fun r => o.tensor r c1 c2 im inv) name name' (h.tensor c1 c2 im inv) hn
  have hten : List.Forall₂ (fun st (e : Name × Entry) => Adds o.dims st (e.1, exchange e.2)) (tensorStepsC order o c0) (tensors s) := by
    have r3 : List.range 3 = [0, 1, 2] := rfl
    have f0 : ([0, 1, 2] : List ℕ).filter (0 ≤ ·) = [0, 1, 2] := by decide
    have f1 : ([0, 1, 2] : List ℕ).filter (1 ≤ ·) = [1, 2] := by decide
    have f2 : ([0, 1, 2] : List ℕ).filter (2 ≤ ·) = [2] := by decide
    unfold tensorStepsC tensors
    simp only [r3, f0, f1, f2, List.flatMap_cons, List.flatMap_nil, List.append_nil, h.hermitian]
    cases s.hermitian
    · simp only [Bool.false_eq_true, false_and, if_false, List.append_nil, List.nil_append, List.cons_append]
      repeat first | exact .nil | (refine .cons ?_ ?_; · exact scT _ _ _ _ _ _ (by dsimp only; decide))
    · simp only [true_and, if_true, ne_eq, not_true_eq_false, if_false, List.append_nil, List.nil_append, List.cons_append, zero_ne_one, one_ne_zero,
        OfNat.zero_ne_ofNat, OfNat.one_ne_ofNat, OfNat.ofNat_ne_zero, OfNat.ofNat_ne_one, not_false_eq_true]
      repeat first | exact .nil | (refine .cons ?_ ?_; · exact scT _ _ _ _ _ _ (by dsimp only; decide))
  have hadd : List.Forall₂ (Adds o.dims) ([writeScalarC order o c0 o.vals "data".toList] ++ (if o.type = 'n' then tensorStepsC order o c0 else []) ++ finishC o)
      (exchanged (scalarFile s)) := by
    unfold exchanged
    rw [List.forall₂_map_right_iff]
    unfold scalarFile
    refine List.rel_append (List.rel_append (.cons ?_ .nil) ?_) (adds_common_together h hd)
    · exact sc _ _ _ _ h.vals rfl
    · rw [h.type]
      split_ifs
      · exact hten
      · exact .nil
  obtain ⟨f, hf, hx⟩ := steps_exactly hadd (exactly_nil o.dims) hnd
  rw [← h.n]
  refine ⟨f, ?_, hx⟩
  unfold outputTogether
  simp only
  rw [if_neg hv, if_pos (h.type ▸ ht), show create old = [] from rfl, hf]
  rfl

/-! ## Reading back -/

/-- C121: given as `epsilon-input-file`, a file written by several processes yields the array with its first two directions exchanged: a grid of ny x nx x nz
points with the value of the point (x, y, z) at (y, x, z). -/
theorem C121_reread {o : OutP P} {s : Out} (h : SameOut o s) (hP : 0 < P) (ht : s.type ∈ ['D', 'H', 'B', 'n', 'm', 'R']) (hd : s.description ≠ [])
    (which : ℤ) (c0 : ℕ → ℝ) (old : Option File) :
    ∃ f d, outputInTurn o which c0 old = .ok (some f) ∧ epsilonFile f = .ok ⟨s.n.2.1, s.n.1, s.n.2.2, d⟩ ∧ d.length = s.n.2.1 * s.n.1 * s.n.2.2 ∧
      ∀ y < s.n.2.1, ∀ x < s.n.1, ∀ z < s.n.2.2, d[(y * s.n.1 + x) * s.n.2.2 + z]? = some (s.vals ((x * s.n.2.1 + y) * s.n.2.2 + z)) := by
  obtain ⟨f, hf, hx⟩ := C121_scalar_in_turn h hP ht hd which c0 old
  have hfirst : findDataset f = some "data".toList := by
    refine exactly_first hx (by rw [exchanged_names]; simp [scalarFile]) ?_
    rw [exchanged_names]
    unfold scalarFile common tensors
    split_ifs <;> cases s.hermitian <;> simp only [List.map_append, List.map_cons, List.map_nil, if_true, Bool.false_eq_true, if_false] <;> decide
  obtain ⟨a, attrs, hg, hdim, d, hc, hval⟩ := hx.2 ("data".toList, exchange (onGrid s s.vals)) (by simp [exchanged, scalarFile])
  dsimp only at hg
  have hl : a.dims.length ≤ 3 := by
    rw [hdim]
    unfold gridDims
    split_ifs <;> simp
  have hlist := grid_list (s.n.2.1, s.n.1, s.n.2.2)
    (fun j => s.vals ((j / s.n.2.2 % s.n.1 * s.n.2.1 + j / s.n.2.2 / s.n.1) * s.n.2.2 + j % s.n.2.2)) d (by
      intro t h1 h2 h3
      rw [hval t h1 h2 h3]
      dsimp only at h2 h3 ⊢
      have e1 : ((t.1 * s.n.1 + t.2.1) * s.n.2.2 + t.2.2) / s.n.2.2 = t.1 * s.n.1 + t.2.1 := by
        rw [mul_comm _ s.n.2.2, Nat.mul_add_div (by omega), Nat.div_eq_of_lt h3, add_zero]
      have e2 : ((t.1 * s.n.1 + t.2.1) * s.n.2.2 + t.2.2) % s.n.2.2 = t.2.2 := by
        rw [mul_comm _ s.n.2.2, Nat.mul_add_mod, Nat.mod_eq_of_lt h3]
      have e3 : (t.1 * s.n.1 + t.2.1) / s.n.1 = t.1 := by
        rw [mul_comm _ s.n.1, Nat.mul_add_div (by omega), Nat.div_eq_of_lt h2, add_zero]
      have e4 : (t.1 * s.n.1 + t.2.1) % s.n.1 = t.2.1 := by
        rw [mul_comm _ s.n.1, Nat.mul_add_mod, Nat.mod_eq_of_lt h2]
      rw [e1, e2, e3, e4])
  refine ⟨f, (boxIdx (gridDims (s.n.2.1, s.n.1, s.n.2.2))).map d, hf, ?_, ?_, fun y hy x hx' z hz => ?_⟩
  · unfold epsilonFile readRealData
    simp only [hfirst, Option.none_or, hg, hl, hc, if_true, Nat.succ_pos, gt_iff_lt, Except.bind, hdim]
    unfold gridDims
    split_ifs with h1 h2 <;> simp_all
  · rw [hlist]
    simp
  · rw [hlist]
    have hlt := rowMajor_lt (rowMajor_lt hy hx') hz
    rw [List.getElem?_map, List.getElem?_range hlt]
    have e1 : ((y * s.n.1 + x) * s.n.2.2 + z) / s.n.2.2 = y * s.n.1 + x := by
      rw [mul_comm _ s.n.2.2, Nat.mul_add_div (by omega), Nat.div_eq_of_lt hz, add_zero]
    have e2 : ((y * s.n.1 + x) * s.n.2.2 + z) % s.n.2.2 = z := by
      rw [mul_comm _ s.n.2.2, Nat.mul_add_mod, Nat.mod_eq_of_lt hz]
    have e3 : (y * s.n.1 + x) / s.n.1 = y := by
      rw [mul_comm _ s.n.1, Nat.mul_add_div (by omega), Nat.div_eq_of_lt hx', add_zero]
    have e4 : (y * s.n.1 + x) % s.n.1 = x := by
      rw [mul_comm _ s.n.1, Nat.mul_add_mod, Nat.mod_eq_of_lt hx']
    simp only [Option.map_some, e1, e2, e3, e4]

/-! ## Example -/

/-- One process: a grid of 3 x 2 points. -/
def exSerial (ty : Char) : Out :=
  { type := ty, n := (3, 2, 1), R := ⟨⟨1, 0, 0⟩, ⟨0, 2, 0⟩, ⟨0, 0, 1⟩⟩, currentK := ⟨1, 1, 0⟩, field := fun j => (j : ℂ), vals := fun j => (j : ℝ),
    tensor := fun _ _ _ _ j => (j : ℝ), hermitian := true, description := "d field".toList }

/-- Three processes, the last of which holds nothing. -/
def exThree (ty : Char) : OutP 3 :=
  { type := ty, n := (3, 2, 1), R := ⟨⟨1, 0, 0⟩, ⟨0, 2, 0⟩, ⟨0, 0, 1⟩⟩, currentK := ⟨1, 1, 0⟩, ly := ⟨![0, 1, 0], ![1, 1, 0]⟩,
    field := fun r j => ((3 * (j / 3 * 2 + r.val) + j % 3 : ℕ) : ℂ), vals := fun r j => ((j * 2 + r.val : ℕ) : ℝ),
    tensor := fun r _ _ _ _ j => ((j * 2 + r.val : ℕ) : ℝ), hermitian := true, description := "d field".toList }

theorem exThree_same (ty : Char) : SameOut (exThree ty) (exSerial ty) where
  type := rfl
  n := rfl
  R := rfl
  currentK := rfl
  hermitian := rfl
  description := rfl
  rows := by
    refine ⟨fun r => by fin_cases r <;> simp [exThree], fun x hx => ?_⟩
    have hx : x < 2 := hx
    interval_cases x
    · exact ⟨0, by simp [exThree], fun r hr => by fin_cases r <;> simp_all [exThree]⟩
    · exact ⟨1, by simp [exThree], fun r hr => by fin_cases r <;> simp_all [exThree]⟩
  field := by
    intro r y hy x hx z hz c hc
    have hx : x < 3 := hx
    have hz : z < 1 := hz
    fin_cases r
    all_goals (simp only [exThree] at hy; norm_num at hy)
    all_goals
      subst hy
      obtain rfl : z = 0 := by omega
      simp only [exThree, exSerial]
      interval_cases x <;> interval_cases c <;> norm_num
  vals := by
    intro r y hy x hx z hz
    have hx : x < 3 := hx
    have hz : z < 1 := hz
    fin_cases r
    all_goals (simp only [exThree] at hy; norm_num at hy)
    all_goals
      subst hy
      obtain rfl : z = 0 := by omega
      simp only [exThree, exSerial]
      interval_cases x <;> norm_num
  tensor := by
    intro c1 c2 im inv r y hy x hx z hz
    have hx : x < 3 := hx
    have hz : z < 1 := hz
    fin_cases r
    all_goals (simp only [exThree] at hy; norm_num at hy)
    all_goals
      subst hy
      obtain rfl : z = 0 := by omega
      simp only [exThree, exSerial]
      interval_cases x <;> norm_num

/-- The three processes write a vector field over an old file; the wavevector, (1, 2, 0) in the reciprocal basis, is in the file with its first two components
exchanged. -/
example : ∃ f a attrs d, outputInTurn (exThree 'd') (-1) (fun _ => 0) (some [("old".toList, .group [])]) = .ok (some f) ∧ get f "old".toList = none ∧
    get f "Bloch wavevector".toList = some (.dset a attrs) ∧ a.content = .num d ∧ (boxIdx [3]).map d = [2, 1, 0] := by
  obtain ⟨f, hf, h1, h2⟩ := C121_vector_in_turn (exThree_same 'd') (by norm_num) (by decide) (by decide) (-1) (fun _ => 0) (some [("old".toList, .group [])])
  obtain ⟨a, attrs, hg, -, d, hc, hv⟩ := h2 ("Bloch wavevector".toList, exchange (.table [3] [(wave (exSerial 'd')).1, (wave (exSerial 'd')).2.1, (wave (exSerial 'd')).2.2]))
    (by simp [exchanged, vectorFile])
  refine ⟨f, a, attrs, d, hf, ?_, hg, hc, ?_⟩
  · cases hgo : get f "old".toList with
    | none => rfl
    | some x =>
      have := (h1 "old".toList).1 (by rw [hgo]; rfl)
      rw [exchanged_names] at this
      exact absurd this (by simp [vectorFile, common])
  · rw [hv]
    simp [exchangeRows, wave, exSerial]

/-- Epsilon, written together with the blocks arriving in another order for every dataset. -/
example : ∃ f, outputTogether (fun m => if m.length = 4 then [2, 1, 0] else [1, 0, 2]) (exThree 'n') 0 (fun _ => 7) none = .ok (some f) ∧
    Exactly (2, 3, 1) f (exchanged (scalarFile (exSerial 'n'))) :=
  C121_scalar_together (exThree_same 'n') _ (fun m => by split_ifs <;> decide) (by decide) (by decide) 0 (fun _ => 7) none

end Mpb.H5

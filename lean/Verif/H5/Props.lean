import Verif.H5.Lemmas

/-! # Property C108: the files MPB writes and reads back -/

namespace Mpb.H5
open Mpb.IO Spec

/-! ## Output files -/

theorem arr3_table (k : ℝ × ℝ × ℝ) : (List.range [3].prod).map (arr3 k) = [k.1, k.2.1, k.2.2] := rfl

theorem arrR_table (R : M3 ℝ) : (List.range [3, 3].prod).map (arrR R) = [R.c0.x, R.c0.y, R.c0.z, R.c1.x, R.c1.y, R.c1.z, R.c2.x, R.c2.y, R.c2.z] := rfl

theorem outputK_wave (o : Out) : outputK o = wave o := by
  unfold outputK wave V3.dot
  simp

theorem steps_finish (o : Out) (l : List (File → Res File)) (f : File) :
    steps (l ++ [finish o]) f = steps (l ++ [fun f => writeDataAttr f .file (some "lattice vectors".toList) (arrR o.R) [3, 3],
      fun f => writeStringAttr f .file (some "description".toList) (some o.description)]) f := by
  rw [steps_append, steps_append]
  congr 1

theorem adds_common (o : Out) (h : o.description ≠ []) : List.Forall₂ (Adds o.n)
    [fun f => writeDataAttr f .file (some "lattice vectors".toList) (arrR o.R) [3, 3],
      fun f => writeStringAttr f .file (some "description".toList) (some o.description)] (common o) := by
  refine .cons ?_ (.cons ?_ .nil)
  · have := adds_table o.n "lattice vectors".toList (by decide) (arrR o.R) [3, 3]
    rw [arrR_table] at this
    exact this
  · exact adds_text o.n _ _ (by decide) h

theorem adds_value (o : Out) (c0 : ℕ → ℝ) (c ri : ℕ) (hc : c < 3) (hri : ri < 2) :
    Adds o.n (writeComp o.n c0 3 (mulPhase o.n o.n (0, 0, 0) (wave o) o.field) c ri) (compName 3 c ri, .grid fun t => part ri (value o c t)) := by
  intro f hf
  obtain ⟨b, hb, h1, d, h2, h3⟩ := adds_comp o.n c0 3 (by norm_num) (mulPhase o.n o.n (0, 0, 0) (wave o) o.field) c ri hri f hf
  refine ⟨b, hb, h1, d, h2, fun t g1 g2 g3 => ?_⟩
  rw [h3 t g1 g2 g3]
  dsimp only
  rw [(mulPhase_spec o.n o.n (0, 0, 0) (wave o) o.field).1 t g1 g2 g3 _ (by omega)]
  simp [value]

/-- C108: for every vector field, grid, lattice, wavevector and choice of components, whatever the file contained before, the file written contains
exactly the real and imaginary parts of the components asked for, with the Bloch phase, the wavevector, the lattice vectors and the description. -/
theorem C108_vector_file (o : Out) (ht : o.type ∈ ['d', 'h', 'b', 'e', 'c', 'v']) (hd : o.description ≠ []) (which : ℤ) (c0 : ℕ → ℝ) (old : Option File) :
    ∃ f, outputField o which c0 old = .ok (some f) ∧ Exactly o.n f (vectorFile o which) := by
  have hsteps : ∀ f, steps [writeComplex o.n c0 which 3 (outputK o) o.field,
      fun f => writeDataAttr f .file (some "Bloch wavevector".toList) (arr3 (outputK o)) [3], finish o] f =
      steps ((((List.range 3).flatMap fun (comp : ℕ) => if (comp : ℤ) = which ∨ which < 0 then
        [writeComp o.n c0 3 (mulPhase o.n o.n (0, 0, 0) (wave o) o.field) comp 0, writeComp o.n c0 3 (mulPhase o.n o.n (0, 0, 0) (wave o) o.field) comp 1] else []) ++
        [fun f => writeDataAttr f .file (some "Bloch wavevector".toList) (arr3 (wave o)) [3]]) ++
        [fun f => writeDataAttr f .file (some "lattice vectors".toList) (arrR o.R) [3, 3],
          fun f => writeStringAttr f .file (some "description".toList) (some o.description)]) f := by
    intro f
    rw [← steps_finish, List.append_assoc, steps_append, outputK_wave, steps_cons]
    rfl
  have hadd : List.Forall₂ (Adds o.n) ((((List.range 3).flatMap fun (comp : ℕ) => if (comp : ℤ) = which ∨ which < 0 then
        [writeComp o.n c0 3 (mulPhase o.n o.n (0, 0, 0) (wave o) o.field) comp 0, writeComp o.n c0 3 (mulPhase o.n o.n (0, 0, 0) (wave o) o.field) comp 1] else []) ++
        [fun f => writeDataAttr f .file (some "Bloch wavevector".toList) (arr3 (wave o)) [3]]) ++
        [fun f => writeDataAttr f .file (some "lattice vectors".toList) (arrR o.R) [3, 3],
          fun f => writeStringAttr f .file (some "description".toList) (some o.description)]) (vectorFile o which) := by
    unfold vectorFile
    refine List.rel_append ?_ (adds_common o hd)
    refine List.rel_append ?_ (.cons ?_ .nil)
    · rw [show List.range 3 = [0, 1, 2] from rfl]
      simp only [List.flatMap_cons, List.flatMap_nil, List.append_nil, ← List.append_assoc]
      have one : ∀ c < 3, ∀ (nr ni : Name), compName 3 c 0 = nr → compName 3 c 1 = ni → List.Forall₂ (Adds o.n)
          (if (c : ℤ) = which ∨ which < 0 then [writeComp o.n c0 3 (mulPhase o.n o.n (0, 0, 0) (wave o) o.field) c 0,
            writeComp o.n c0 3 (mulPhase o.n o.n (0, 0, 0) (wave o) o.field) c 1] else [])
          (if which < 0 ∨ which = c then [(nr, .grid fun t => (value o c t).re), (ni, .grid fun t => (value o c t).im)] else []) := by
        intro c hc nr ni hr hi
        by_cases hw : (c : ℤ) = which ∨ which < 0
        · rw [if_pos hw, if_pos (by omega)]
          subst hr hi
          exact .cons (adds_value o c0 c 0 hc (by norm_num)) (.cons (adds_value o c0 c 1 hc (by norm_num)) .nil)
        · rw [if_neg hw, if_neg (by omega)]
          exact .nil
      exact List.rel_append (List.rel_append (one 0 (by norm_num) _ _ (by decide) (by decide)) (one 1 (by norm_num) _ _ (by decide) (by decide)))
        (one 2 (by norm_num) _ _ (by decide) (by decide))
    · have := adds_table o.n "Bloch wavevector".toList (by decide) (arr3 (wave o)) [3]
      rw [arr3_table] at this
      exact this
  have hnd : ((([] : List (Name × Entry)) ++ vectorFile o which).map (·.1)).Nodup := by
    unfold vectorFile common
    rw [List.nil_append]
    split_ifs <;> simp only [List.map_append, List.map_cons, List.map_nil] <;> decide
  obtain ⟨f, hf, hx⟩ := steps_exactly hadd (exactly_nil o.n) hnd
  refine ⟨f, ?_, hx⟩
  unfold outputField
  simp only
  rw [if_pos ht, hsteps, show create old = [] from rfl, hf]
  rfl

/-- C108: for every real scalar field (epsilon, mu, an energy density or any other), grid and lattice, whatever the file contained before, the file
written contains exactly the array, for epsilon also the components of the tensor and of its inverse, the lattice vectors and the description. -/
theorem C108_scalar_file (o : Out) (ht : o.type ∈ ['D', 'H', 'B', 'n', 'm', 'R']) (hd : o.description ≠ []) (hn : 0 < o.n.1 ∧ 0 < o.n.2.1 ∧ 0 < o.n.2.2)
    (which : ℤ) (c0 : ℕ → ℝ) (old : Option File) : ∃ f, outputField o which c0 old = .ok (some f) ∧ Exactly o.n f (scalarFile o) := by
  have hv : o.type ∉ ['d', 'h', 'b', 'e', 'c', 'v'] := by
    simp only [List.mem_cons, List.not_mem_nil, or_false] at ht
    rcases ht with h | h | h | h | h | h <;> rw [h] <;> decide
  have hC : o.type ∉ ['C'] := by
    simp only [List.mem_cons, List.not_mem_nil, or_false] at ht
    rcases ht with h | h | h | h | h | h <;> rw [h] <;> decide
  have sc : ∀ vals name name', name = name' → Adds o.n (writeScalar o.n c0 vals name) (name', onGrid o vals) := by
    rintro vals name _ rfl
    exact adds_scalar o.n hn c0 vals name
  have hten : List.Forall₂ (Adds o.n) (tensorSteps o c0) (tensors o) := by
    have r3 : List.range 3 = [0, 1, 2] := rfl
    have f0 : ([0, 1, 2] : List ℕ).filter (0 ≤ ·) = [0, 1, 2] := by decide
    have f1 : ([0, 1, 2] : List ℕ).filter (1 ≤ ·) = [1, 2] := by decide
    have f2 : ([0, 1, 2] : List ℕ).filter (2 ≤ ·) = [2] := by decide
    unfold tensorSteps tensors
    simp only [r3, f0, f1, f2, List.flatMap_cons, List.flatMap_nil, List.append_nil]
    cases o.hermitian
    · simp only [Bool.false_eq_true, false_and, if_false, List.append_nil, List.nil_append, List.cons_append]
      repeat first | exact .nil | refine .cons (sc _ _ _ (by decide)) ?_
    · norm_num
      repeat' apply And.intro
      all_goals exact sc _ _ _ (by decide)
  have hadd : List.Forall₂ (Adds o.n) ((writeScalar o.n c0 o.vals "data".toList :: (if o.type = 'n' then tensorSteps o c0 else [])) ++
        [fun f => writeDataAttr f .file (some "lattice vectors".toList) (arrR o.R) [3, 3],
          fun f => writeStringAttr f .file (some "description".toList) (some o.description)]) (scalarFile o) := by
    unfold scalarFile
    refine List.rel_append ?_ (adds_common o hd)
    refine .cons (sc _ _ _ rfl) ?_
    split_ifs
    · exact hten
    · exact .nil
  have hnd : ((([] : List (Name × Entry)) ++ scalarFile o).map (·.1)).Nodup := by
    unfold scalarFile common tensors
    rw [List.nil_append]
    split_ifs <;> cases o.hermitian <;> simp only [List.map_append, List.map_cons, List.map_nil, if_true, Bool.false_eq_true, if_false] <;> decide
  obtain ⟨f, hf, hx⟩ := steps_exactly hadd (exactly_nil o.n) hnd
  refine ⟨f, ?_, hx⟩
  unfold outputField
  simp only
  rw [if_neg hv, if_neg hC, if_pos ht, steps_finish, show create old = [] from rfl, hf]
  rfl

/-! ## Reading back -/

/-- C108: reading without a name gives the dataset whose name comes first in alphabetical order. -/
theorem C108_first (f : File) (n : Name) (a : Arr) (attrs : List (Name × Arr)) (hn : get f n = some (.dset a attrs))
    (hfirst : ∀ m b battrs, get f m = some (.dset b battrs) → n ≤ m) (v : Dataset) (hv : a.content = .num v) (maxRank : ℕ) (hr : 0 < maxRank) :
    readRealData f none maxRank = if a.dims.length ≤ maxRank then .ok (some (a.dims, (boxIdx a.dims).map v)) else .error .stop := by
  have h : findDataset f = some n := by
    rw [findDataset_iff]
    refine ⟨by simp [datasetExists, hn], fun m hm => ?_⟩
    unfold datasetExists at hm
    split at hm
    · rename_i b battrs h
      exact hfirst m b battrs h
    · exact absurd hm (by simp)
  simp [readRealData, hr, h, hn, hv]

theorem grid_list (n : ℕ × ℕ × ℕ) (v : ℕ → ℝ) (d : Dataset)
    (h : ∀ t : ℕ × ℕ × ℕ, t.1 < n.1 → t.2.1 < n.2.1 → t.2.2 < n.2.2 → d (gridIdx n t) = v ((t.1 * n.2.1 + t.2.1) * n.2.2 + t.2.2)) :
    (boxIdx (gridDims n)).map d = (List.range (n.1 * n.2.1 * n.2.2)).map v := by
  have hp : (gridDims n).prod = n.1 * n.2.1 * n.2.2 := by
    unfold gridDims
    split_ifs with h1 h2
    · simp [h1, h2]
    · simp [h1]
    · simp [mul_assoc]
  rw [← hp, ← map_rm_boxIdx, List.map_map]
  refine List.map_congr_left fun idx hi => ?_
  rw [mem_boxIdx] at hi
  unfold gridDims at hi ⊢
  unfold gridIdx at h
  split_ifs at hi h ⊢ with h1 h2
  · simp only [List.forall₂_cons_right_iff, List.forall₂_nil_right_iff] at hi
    obtain ⟨x, _, hx, rfl, rfl⟩ := hi
    rw [h (x, 0, 0) hx (by simp [h2]) (by simp [h1])]
    simp [rm, h1, h2]
  · simp only [List.forall₂_cons_right_iff, List.forall₂_nil_right_iff] at hi
    obtain ⟨x, _, hx, ⟨y, _, hy, rfl, rfl⟩, rfl⟩ := hi
    rw [h (x, y, 0) hx hy (by simp [h1])]
    simp [rm, h1]
  · simp only [List.forall₂_cons_right_iff, List.forall₂_nil_right_iff] at hi
    obtain ⟨x, _, hx, ⟨y, _, hy, ⟨z, _, hz, rfl, rfl⟩, rfl⟩, rfl⟩ := hi
    rw [h (x, y, z) hx hy hz]
    simp only [rm, Function.comp_apply, List.prod_cons, List.prod_nil]
    congr 1
    ring

/-- C108: a file that MPB wrote for a real scalar field (such as the one of `output-epsilon`) and that is then given as `epsilon-input-file` yields
the sizes of the grid and the array that was written. -/
theorem C108_reread (o : Out) (ht : o.type ∈ ['D', 'H', 'B', 'n', 'm', 'R']) (hd : o.description ≠ []) (hn : 0 < o.n.1 ∧ 0 < o.n.2.1 ∧ 0 < o.n.2.2)
    (which : ℤ) (c0 : ℕ → ℝ) (old : Option File) :
    ∃ f, outputField o which c0 old = .ok (some f) ∧
      epsilonFile f = .ok ⟨o.n.1, o.n.2.1, o.n.2.2, (List.range (o.n.1 * o.n.2.1 * o.n.2.2)).map o.vals⟩ := by
  obtain ⟨f, hf, hx⟩ := C108_scalar_file o ht hd hn which c0 old
  refine ⟨f, hf, ?_⟩
  have hfirst : findDataset f = some "data".toList := by
    refine exactly_first hx (by simp [scalarFile]) ?_
    unfold scalarFile common tensors
    split_ifs <;> cases o.hermitian <;> simp only [List.map_append, List.map_cons, List.map_nil, if_true, Bool.false_eq_true, if_false] <;> decide
  obtain ⟨a, attrs, hg, hdim, d, hc, hval⟩ := hx.2 ("data".toList, onGrid o o.vals) (by simp [scalarFile])
  dsimp only at hg
  have hl : a.dims.length ≤ 3 := by
    rw [hdim]
    unfold gridDims
    split_ifs <;> simp
  unfold epsilonFile readRealData
  simp only [hfirst, Option.none_or, hg, hl, hc, if_true, Nat.succ_pos, gt_iff_lt, Except.bind, hdim]
  rw [grid_list o.n o.vals d hval]
  unfold gridDims
  split_ifs with h1 h2 <;> simp_all

/-- C108: the lattice vectors and the wavevector that `mpb-data` looks for in the file of a vector field are those MPB wrote. -/
theorem C108_vector_attributes (o : Out) (ht : o.type ∈ ['d', 'h', 'b', 'e', 'c', 'v']) (hd : o.description ≠ []) (which : ℤ) (c0 : ℕ → ℝ) (old : Option File) :
    ∃ f, outputField o which c0 old = .ok (some f) ∧
      readDataAttr f .file (some "lattice vectors".toList) 2 = .ok (some 2, some ([3, 3],
        [o.R.c0.x, o.R.c0.y, o.R.c0.z, o.R.c1.x, o.R.c1.y, o.R.c1.z, o.R.c2.x, o.R.c2.y, o.R.c2.z])) ∧
      readDataAttr f .file (some "Bloch wavevector".toList) 1 = .ok (some 1, some ([3], [(wave o).1, (wave o).2.1, (wave o).2.2])) ∧
      readStringAttr f .file (some "description".toList) = .ok (some o.description) := by
  obtain ⟨f, hf, hx⟩ := C108_vector_file o ht hd which c0 old
  refine ⟨f, hf, ?_, ?_, ?_⟩
  · obtain ⟨a, attrs, hg, hdim, d, hc, hval⟩ := hx.2 ("lattice vectors".toList, .table [3, 3]
      [o.R.c0.x, o.R.c0.y, o.R.c0.z, o.R.c1.x, o.R.c1.y, o.R.c1.z, o.R.c2.x, o.R.c2.y, o.R.c2.z]) (by simp [vectorFile, common])
    dsimp only at hg
    have hne : ¬ ("lattice vectors".toList = [] ∨ (2 : ℤ) < 0) := by decide
    simp only [readDataAttr, if_neg hne, openAttr, hg, hdim, hc, hval]
    norm_num
  · obtain ⟨a, attrs, hg, hdim, d, hc, hval⟩ := hx.2 ("Bloch wavevector".toList, .table [3] [(wave o).1, (wave o).2.1, (wave o).2.2]) (by simp [vectorFile])
    dsimp only at hg
    have hne : ¬ ("Bloch wavevector".toList = [] ∨ (1 : ℤ) < 0) := by decide
    simp only [readDataAttr, if_neg hne, openAttr, hg, hdim, hc, hval]
    norm_num
  · obtain ⟨a, attrs, hg, hdim, hc⟩ := hx.2 ("description".toList, .text o.description) (by simp [vectorFile, common])
    dsimp only at hg
    have hne : ¬ "description".toList = [] := by decide
    simp only [readStringAttr, if_neg hne, openAttr, hg, hdim, hc, List.prod_nil, if_true]

/-- The file of a vector field is not one for `epsilon-input-file`: the first dataset is the wavevector, so that is what would be taken for the
dielectric function. -/
theorem C108_vector_as_epsilon (o : Out) (ht : o.type ∈ ['d', 'h', 'b', 'e', 'c', 'v']) (hd : o.description ≠ []) (which : ℤ) (c0 : ℕ → ℝ) (old : Option File) :
    ∃ f, outputField o which c0 old = .ok (some f) ∧ epsilonFile f = .ok ⟨3, 1, 1, [(wave o).1, (wave o).2.1, (wave o).2.2]⟩ := by
  obtain ⟨f, hf, hx⟩ := C108_vector_file o ht hd which c0 old
  refine ⟨f, hf, ?_⟩
  have hfirst : findDataset f = some "Bloch wavevector".toList := by
    refine exactly_first hx (by simp [vectorFile]) ?_
    unfold vectorFile common
    split_ifs <;> simp only [List.map_append, List.map_cons, List.map_nil] <;> decide
  obtain ⟨a, attrs, hg, hdim, d, hc, hval⟩ := hx.2 ("Bloch wavevector".toList, .table [3] [(wave o).1, (wave o).2.1, (wave o).2.2]) (by simp [vectorFile])
  dsimp only at hg
  unfold epsilonFile readRealData
  simp only [hfirst, Option.none_or, hg, hc, if_true, Nat.succ_pos, gt_iff_lt, Except.bind, hdim, hval]
  norm_num

/-- C108, the documented behaviour fails: with a file that contains no dataset (here, only a group) the reading function, documented to return
NULL, uses an uninitialised name, so that `epsilon-input-file` does not stop with "couldn't find dataset in dielectric file". -/
theorem C108_no_dataset_refuted : ∃ f : File, (∀ n, datasetExists f n = false) ∧ (∃ n, get f n ≠ none) ∧ epsilonFile f = .error .undef := by
  refine ⟨[("g".toList, .group [])], ?_, ⟨"g".toList, by simp [get]⟩, ?_⟩
  · intro n
    unfold datasetExists get
    by_cases h : "g".toList = n
    · simp [h]
    · simp [h]
  · have : findDataset [("g".toList, .group [])] = none := by
      rw [findDataset_none]
      intro n
      unfold datasetExists get
      by_cases h : "g".toList = n
      · simp [h]
      · simp [h]
    unfold epsilonFile readRealData
    rw [this]
    rfl

/-! ## Histories of a file -/

/-- A call that changes the file. -/
inductive Op where
  | create (name : Name) (description : Option (List Char)) (dims : List ℕ)
  | sub (name : Name) (description : Option (List Char))
  | write (name : Name) (localDims localStart : List ℕ) (stride : ℕ) (data c0 : ℕ → ℝ)
  | delete (name : Name)
  | stringAttr (l : Loc) (name val : Option (List Char))
  | dataAttr (l : Loc) (name : Option Name) (val : ℕ → ℝ) (dims : List ℕ)

/-- The call. -/
def Op.run : Op → File → Res File
  | .create n d dims, f => createDataset f n d dims
  | .sub n d, f => createSub f n d
  | .write n ld ls s data c0, f => writeData f n ld ls s data c0
  | .delete n, f => .ok (datasetDelete f n)
  | .stringAttr l n v, f => writeStringAttr f l n v
  | .dataAttr l n v dims, f => writeDataAttr f l n v dims

/-- The object the call is about. -/
def Op.target : Op → Option Name
  | .create n _ _ => some n
  | .sub n _ => some n
  | .write n _ _ _ _ _ => some n
  | .delete n => some n
  | .stringAttr .file n _ => n
  | .stringAttr (.obj m) _ _ => some m
  | .dataAttr .file n _ _ => n
  | .dataAttr (.obj m) _ _ _ => some m

theorem writeAttr_frame {f f' : File} {l : Loc} {name : Name} {a : Arr} (h : writeAttr f l name a = .ok f') (n : Name)
    (hn : n ≠ (match l with | .file => name | .obj m => m)) : get f' n = get f n := by
  unfold writeAttr at h
  cases l with
  | file =>
    simp only at h hn
    split_ifs at h
    cases h
    exact get_put_ne f hn _
  | obj m =>
    simp only at h hn
    split at h
    · exact absurd h (by simp)
    · split_ifs at h
      cases h
      exact get_put_ne f hn _
    · split_ifs at h
      cases h
      exact get_put_ne f hn _

theorem writeStringAttr_frame {f f' : File} {l : Loc} {name val : Option (List Char)} (h : writeStringAttr f l name val = .ok f') (n : Name)
    (hn : some n ≠ (match l with | .file => name | .obj m => some m)) : get f' n = get f n := by
  unfold writeStringAttr at h
  cases name with
  | none => cases h; rfl
  | some nm =>
    cases val with
    | none => cases h; rfl
    | some v =>
      simp only at h
      split_ifs at h
      · cases h; rfl
      · refine writeAttr_frame h n ?_
        cases l <;> simpa using hn

theorem op_frame {op : Op} {f f' : File} (h : op.run f = .ok f') (n : Name) (hn : op.target ≠ some n) : get f' n = get f n := by
  cases op with
  | create m d dims =>
    have hm : n ≠ m := fun h' => hn (by simp [Op.target, h'])
    simp only [Op.run, createDataset] at h
    split_ifs at h with h1 h2 h3
    · rw [writeStringAttr_frame h n (by simpa using hm), get_put_ne _ hm]
      exact get_del_ne f hm
    · rw [writeStringAttr_frame h n (by simpa using hm), get_put_ne _ hm]
  | sub m d =>
    have hm : n ≠ m := fun h' => hn (by simp [Op.target, h'])
    simp only [Op.run, createSub] at h
    split_ifs at h
    rw [writeStringAttr_frame h n (by simpa using hm), get_put_ne _ hm]
  | write m ld ls s data c0 =>
    have hm : n ≠ m := fun h' => hn (by simp [Op.target, h'])
    simp only [Op.run, writeData] at h
    split at h
    · split at h
      · cases h; exact get_put_ne f hm _
      · exact absurd h (by simp)
    · cases h; rfl
    · exact absurd h (by simp)
  | delete m =>
    have hm : n ≠ m := fun h' => hn (by simp [Op.target, h'])
    cases h
    exact get_del_ne f hm
  | stringAttr l name v =>
    refine writeStringAttr_frame h n fun h' => hn ?_
    cases l <;> simp [Op.target, h']
  | dataAttr l name v dims =>
    simp only [Op.run, writeDataAttr] at h
    split at h
    · split_ifs at h
      · cases h; rfl
      · refine writeAttr_frame h n fun h' => hn ?_
        cases l <;> simp [Op.target, h']
    · cases h; rfl

/-- C108: whatever a file contained and whatever is done afterwards to other names, a dataset that was created and written as a whole is read back
with its sizes and values. -/
theorem C108_kept (f : File) (name : Name) (hg : ∀ attrs, get f name ≠ some (.group attrs)) (dims : List ℕ) (hd : dims ≠ []) (data c0 : ℕ → ℝ) (ops : List Op)
    (hops : ∀ op ∈ ops, op.target ≠ some name) (f' : File)
    (h : steps (Op.run (.create name none dims) :: Op.run (.write name dims (dims.map fun _ => 0) 1 data c0) :: ops.map Op.run) f = .ok f')
    (maxRank : ℕ) (hr : dims.length ≤ maxRank) : readRealData f' (some name) maxRank = .ok (some (dims, (List.range dims.prod).map data)) := by
  have hc : ∃ f1, createDataset f name none dims = .ok (put f1 name (.dset ⟨dims, .num fun _ => 0⟩ [])) := by
    unfold createDataset
    have hl : dims.length > 0 := List.length_pos_iff.2 hd
    by_cases he : datasetExists f name = true
    · refine ⟨del f name, ?_⟩
      simp [he, datasetDelete, hl, get_del_self, writeStringAttr]
    · have : get f name = none := by
        cases hget : get f name with
        | none => rfl
        | some o =>
          cases o with
          | dset a attrs => exact absurd (by simp [datasetExists, hget]) he
          | group attrs => exact absurd hget (hg attrs)
      refine ⟨f, ?_⟩
      simp [he, hl, this, writeStringAttr]
  obtain ⟨f1, hc⟩ := hc
  obtain ⟨d, h1, h2, -⟩ := writeReal_apply dims (dims.map fun _ => 0) 1 data c0 (fun _ => 0) hd (by simp) le_rfl
  rw [steps_cons, Op.run, hc] at h
  simp only [Except.bind] at h
  rw [steps_cons, Op.run, writeData, get_put_self] at h
  simp only [h1, Except.bind, put_put] at h
  have hframe : ∀ (ops : List Op) (g : File), (∀ op ∈ ops, op.target ≠ some name) → steps (ops.map Op.run) g = .ok f' → get f' name = get g name := by
    intro ops
    induction ops with
    | nil => intro g _ hg'; cases hg'; rfl
    | cons op ops ih =>
      intro g hops hg'
      rw [List.map_cons, steps_cons] at hg'
      cases hrun : op.run g with
      | error e => rw [hrun] at hg'; exact absurd hg' (by simp [Except.bind])
      | ok g1 =>
        rw [hrun] at hg'
        rw [ih g1 (fun op hop => hops op (List.mem_cons_of_mem _ hop)) hg', op_frame hrun name (hops op List.mem_cons_self)]
  have hget := hframe ops _ hops h
  rw [get_put_self] at hget
  have hpos : maxRank > 0 := lt_of_lt_of_le (List.length_pos_iff.2 hd) hr
  simp only [readRealData, hpos, if_true, Option.some_or, hget, hr]
  congr 3
  rw [← map_rm_boxIdx, List.map_map]
  refine List.map_congr_left fun idx hi => ?_
  have := h2 idx hi
  rw [mul_one] at this
  rw [Function.comp_apply, ← this]
  congr 1
  unfold addIdx
  have hlen := length_of_mem_boxIdx hi
  clear * - hlen
  induction dims generalizing idx with
  | nil => simp_all
  | cons a ds ih =>
    cases idx with
    | nil => simp at hlen
    | cons i is => simpa using ih is (by simpa using hlen)

/-- C108: and it can be opened again to be written to, with the sizes it was created with and with no others. -/
theorem C108_reopen (f : File) (name : Name) (hg : ∀ attrs, get f name ≠ some (.group attrs)) (dims : List ℕ) (hd : dims ≠ []) (data c0 : ℕ → ℝ) (ops : List Op)
    (hops : ∀ op ∈ ops, op.target ≠ some name) (f' : File)
    (h : steps (Op.run (.create name none dims) :: Op.run (.write name dims (dims.map fun _ => 0) 1 data c0) :: ops.map Op.run) f = .ok f')
    (dims' : List ℕ) : openDataset f' name dims' = .ok () ↔ dims' = dims := by
  have h1 := C108_kept f name hg dims hd data c0 ops hops f' h dims.length le_rfl
  have hpos : dims.length > 0 := List.length_pos_iff.2 hd
  simp only [readRealData, hpos, if_true, Option.some_or] at h1
  unfold openDataset
  cases hget : get f' name with
  | none => rw [hget] at h1; simp at h1
  | some o =>
    rw [hget] at h1
    cases o with
    | group a => simp at h1
    | dset a attrs =>
      obtain ⟨ds, c⟩ := a
      cases c with
      | str s => simp only at h1; split_ifs at h1
      | num v =>
        simp only at h1
        split_ifs at h1
        simp only [Except.ok.injEq, Option.some.injEq, Prod.mk.injEq] at h1
        obtain ⟨rfl, -⟩ := h1
        simp only
        split_ifs with hx
        · simp [hx]
        · simp [Ne.symm hx]

/-! ## Attributes -/

/-- C108: an attribute that was written is read back, on a file and on an object, and everything else on the same object is as before. -/
theorem C108_attribute (f f' : File) (l : Loc) (name : Name) (hn : name ≠ []) (val : ℕ → ℝ) (dims : List ℕ)
    (h : writeDataAttr f l (some name) val dims = .ok f') (maxRank : ℤ) :
    (readDataAttr f' l (some name) maxRank = if maxRank < 0 then .ok (none, none) else if (dims.length : ℤ) ≤ maxRank then
      .ok (some dims.length, some (dims, (List.range dims.prod).map val)) else .ok (some dims.length, none)) ∧
    (∀ m, m ≠ name → openAttr f' l m = openAttr f l m) ∧ ∀ (v' : ℕ → ℝ) (dims' : List ℕ), writeDataAttr f' l (some name) v' dims' = .error .stop := by
  have hopen : openAttr f' l name = some ⟨dims, .num fun idx => val (rm dims idx)⟩ ∧ (∀ m, m ≠ name → openAttr f' l m = openAttr f l m) ∧
      ∀ a, writeAttr f' l name a = .error .stop := by
    simp only [writeDataAttr, hn, if_false, writeAttr] at h
    cases l with
    | file =>
      simp only at h
      split_ifs at h
      cases h
      refine ⟨by simp [openAttr], fun m hm => by simp [openAttr, get_put_ne f hm], fun a => by simp [writeAttr]⟩
    | obj n =>
      simp only at h
      split at h
      · exact absurd h (by simp)
      · rename_i b attrs hg
        split_ifs at h
        cases h
        refine ⟨by simp [openAttr], fun m hm => by simp [openAttr, hg, get_put_ne attrs hm], fun a => by simp [writeAttr]⟩
      · rename_i attrs hg
        split_ifs at h
        cases h
        refine ⟨by simp [openAttr], fun m hm => by simp [openAttr, hg, get_put_ne attrs hm], fun a => by simp [writeAttr]⟩
  refine ⟨?_, hopen.2.1, fun v' dims' => by simp [writeDataAttr, hn, hopen.2.2]⟩
  simp only [readDataAttr, hn, false_or, hopen.1]
  split_ifs
  · rfl
  · rw [← map_rm_boxIdx, List.map_map]; rfl
  · rfl

/-- C108: the same for a text; an empty text is not written at all. -/
theorem C108_text (f f' : File) (l : Loc) (name s : List Char) (hn : name ≠ []) (h : writeStringAttr f l (some name) (some s) = .ok f') :
    (s ≠ [] → readStringAttr f' l (some name) = .ok (some s)) ∧ (s = [] → f' = f) := by
  constructor
  · intro hs
    simp only [writeStringAttr, hn, hs, or_self, if_false, writeAttr] at h
    cases l with
    | file =>
      simp only at h
      split_ifs at h
      cases h
      simp [readStringAttr, hn, openAttr]
    | obj n =>
      simp only at h
      split at h
      · exact absurd h (by simp)
      · split_ifs at h
        cases h
        simp [readStringAttr, hn, openAttr]
      · split_ifs at h
        cases h
        simp [readStringAttr, hn, openAttr]
  · rintro rfl
    simp only [writeStringAttr, or_true, if_true] at h
    cases h
    rfl

/-- C108, reading an attribute of the other kind is not refused: every file MPB writes has a text "description", and reading it as numbers returns a
buffer that was never filled. -/
theorem C108_kind_refuted (o : Out) (ht : o.type ∈ ['d', 'h', 'b', 'e', 'c', 'v']) (hd : o.description ≠ []) (which : ℤ) (c0 : ℕ → ℝ) (old : Option File) :
    ∃ f, outputField o which c0 old = .ok (some f) ∧ readDataAttr f .file (some "description".toList) 2 = .error .undef := by
  obtain ⟨f, hf, hx⟩ := C108_vector_file o ht hd which c0 old
  refine ⟨f, hf, ?_⟩
  obtain ⟨a, attrs, hg, hdim, hc⟩ := hx.2 ("description".toList, .text o.description) (by simp [vectorFile, common])
  dsimp only at hg
  have hne : ¬ ("description".toList = [] ∨ (2 : ℤ) < 0) := by decide
  simp only [readDataAttr, if_neg hne, openAttr, hg, hdim, hc]
  norm_num

/-- An 8 by 4 grid with a description; the epsilon file has 21 datasets with Hermitian tensors. -/
noncomputable def sample : Out :=
  ⟨'n', (8, 4, 1), ⟨⟨1, 0, 0⟩, ⟨0, 1, 0⟩, ⟨0, 0, 1⟩⟩, ⟨1 / 2, 0, 0⟩, fun a => a, fun a => a, fun _ _ _ _ a => a, true, "dielectric function, epsilon".toList⟩

example : (scalarFile sample).length = 21 ∧ ∃ f, outputField sample (-1) (fun _ => 0) none = .ok (some f) ∧
    epsilonFile f = .ok ⟨8, 4, 1, (List.range 32).map fun a => (a : ℝ)⟩ :=
  ⟨rfl, C108_reread sample (by decide) (by decide) (by decide) (-1) (fun _ => 0) none⟩

/-- A dataset is overwritten by another of a different shape, then another one is written. -/
example : ∃ f', steps (Op.run (.create "a".toList none [2, 2]) :: Op.run (.write "a".toList [2, 2] ([2, 2].map fun _ => 0) 1 (fun a => a) fun _ => 0) ::
    [Op.create "b".toList none [3], Op.dataAttr (.obj "b".toList) (some "k".toList) (fun _ => 1) [3]].map Op.run)
    [("a".toList, .dset ⟨[5], .num fun _ => 7⟩ [])] = .ok f' := by
  simp [steps, Op.run, createDataset, datasetExists, get, put, del, datasetDelete, writeStringAttr, writeData, writeReal, writeDataAttr, writeAttr, Except.bind]

end Mpb.H5

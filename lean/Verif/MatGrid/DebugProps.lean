import Verif.MatGrid.DebugModel
import Verif.MatGrid.MatchCases

/-! # Property C106: the debugging functions of material grids -/

namespace Mpb.MatGrid
open Mpb.Field Mpb.Maxwell Mpb.Tensor Mpb.Epsilon Spec Filter Topology

theorem mapM_all {α β : Type} {f : α → Option β} {g : α → β} (l : List α) (h : ∀ a ∈ l, f a = some (g a)) : l.mapM f = some (l.map g) := by
  induction l with
  | nil => rfl
  | cons a l ih =>
    rw [List.mapM_cons, h a (by simp), ih fun b hb => h b (by simp [hb])]
    rfl

theorem mapM_fails {α β : Type} {f : α → Option β} (l : List α) {a : α} (ha : a ∈ l) (h : f a = none) : l.mapM f = none := by
  induction l with
  | nil => cases ha
  | cons b l ih =>
    rw [List.mapM_cons]
    rcases List.mem_cons.1 ha with rfl | ha
    · rw [h]; rfl
    · rw [ih ha]
      cases f b <;> rfl

theorem loop3_getElem (S : Shape) {q : ℕ × ℕ × ℕ} (h : q ∈ loop3 S.nx S.ny S.nz) : (loop3 S.nx S.ny S.nz)[flatIdx S q]? = some q := by
  obtain ⟨m, hm, hq⟩ := List.getElem_of_mem h
  have e := loop3_map_addr S.nx S.ny S.nz
  have hl : (loop3 S.nx S.ny S.nz).length = S.nx * S.ny * S.nz := by
    have := congrArg List.length e
    simpa using this
  have h1 : ((loop3 S.nx S.ny S.nz).map (flatIdx S))[m]? = some m := by
    rw [show (loop3 S.nx S.ny S.nz).map (flatIdx S) = List.range (S.nx * S.ny * S.nz) from e, List.getElem?_range (by omega)]
  rw [List.getElem?_map, List.getElem?_eq_getElem hm, hq] at h1
  have h2 : flatIdx S q = m := by simpa using h1
  rw [h2, List.getElem?_eq_getElem hm, hq]

/-- The dielectric constants are read at all points if the array holds all of them. -/
theorem readAll_eq {S : Shape} (hinv : S.inv = false) {heev : Heev} {e : ℕ → HMat} {F : ℕ × ℕ × ℕ → ℝ}
    (h : ∀ q ∈ visits S, meanMedium heev (e q.idx) = some (F q.pt)) : readAll S heev e = some ((loop3 S.nx S.ny S.nz).map F) ∧
      ∀ q ∈ loop3 S.nx S.ny S.nz, meanAt S heev e (flatIdx S q) = some (F q) := by
  have key : ∀ q ∈ loop3 S.nx S.ny S.nz, meanAt S heev e (flatIdx S q) = some (F q) := by
    intro q hq
    have hlt : flatIdx S q < S.outSize := by
      have : flatIdx S q ∈ (loop3 S.nx S.ny S.nz).map (flatIdx S) := List.mem_map_of_mem hq
      rw [show (loop3 S.nx S.ny S.nz).map (flatIdx S) = List.range (S.nx * S.ny * S.nz) from loop3_map_addr _ _ _, List.mem_range] at this
      unfold Shape.outSize
      rw [if_neg (by rw [hinv]; simp)]
      exact this
    unfold meanAt
    rw [if_pos hlt]
    refine h ⟨q, flatIdx S q, q.2.1, q.2.2⟩ ?_
    rw [visits_full (by rw [hinv]; simp)]
    exact List.mem_map.2 ⟨q, hq, rfl⟩
  exact ⟨mapM_all _ key, key⟩

theorem Arr.ext' {a b : Arr} (h : a.len = b.len) (h' : a.get = b.get) : a = b := by
  cases a; cases b; simp_all

/-- Writing all values again hides what was written before. -/
theorem set_over (u w : Arr) (gs : List MGrid) (U : Mem) (hl : offset gs ≤ u.len) (hw : offset gs ≤ w.len) (ha : Allocated U gs) (hd : DistinctArrays gs)
    {U1 : Mem} (h1 : materialGridsSet w gs 0 U = some U1) : materialGridsSet u gs 0 U1 = materialGridsSet u gs 0 U := by
  obtain ⟨V1, a1, a2, a3, a4⟩ := set_spec w gs 0 U (by omega) ha
  obtain rfl : V1 = U1 := by rw [a1] at h1; exact Option.some.inj h1
  obtain ⟨V2, b1, b2, b3, b4⟩ := set_spec u gs 0 V1 (by omega) (fun g hg => by rw [a2]; exact ha g hg)
  obtain ⟨V3, c1, c2, c3, c4⟩ := set_spec u gs 0 U (by omega) ha
  rw [b1, c1]
  congr 1
  funext b
  by_cases hb : ∀ g ∈ gs, g.arr ≠ b
  · rw [b3 b hb, a3 b hb, c3 b hb]
  · push Not at hb
    obtain ⟨g, hg, rfl⟩ := hb
    obtain ⟨pre, post, he⟩ := List.append_of_mem hg
    refine Arr.ext' (by rw [b2, a2, c2]) ?_
    funext i
    by_cases hi : i < g.ntot
    · rw [(b4 hd pre g post he).1 i hi, (c4 hd pre g post he).1 i hi]
    · rw [(b4 hd pre g post he).2 i (by omega), (a4 hd pre g post he).2 i (by omega), (c4 hd pre g post he).2 i (by omega)]

theorem write_back {u : Arr} {k : ℕ} (hk : k < u.len) (du : ℝ) : u.write k (u.get k + du) = some (setEntry u k (u.get k + du)) ∧
    (setEntry u k (u.get k + du)).write k ((setEntry u k (u.get k + du)).get k - du) = some u := by
  unfold Arr.write setEntry
  refine ⟨by rw [if_pos hk], ?_⟩
  rw [if_pos hk]
  congr 1
  refine Arr.ext' rfl ?_
  dsimp only
  rw [Function.update_self, Function.update_idem, add_sub_cancel_right, Function.update_eq_self]

/-- The loop over the grid values. -/
theorem num_fold {S : Shape} {heev : Heev} {reset : Mem → Option (ℕ → HMat)} {gs : List MGrid} {U : Mem} (ha : Allocated U gs) (hd : DistinctArrays gs)
    {u : Arr} (hu : u.len = offset gs) {du : ℝ} {Uk : ℕ → Mem}
    (hUk : ∀ k < offset gs, materialGridsSet (setEntry u k (u.get k + du)) gs 0 U = some (Uk k)) {ek : ℕ → List ℝ}
    (hread : ∀ k < offset gs, ∃ e, reset (Uk k) = some e ∧ readAll S heev e = some (ek k)) (ep : List ℝ) : ∀ l : List ℕ, (∀ k ∈ l, k < offset gs) →
    ∀ M cols, (∃ w : Arr, offset gs ≤ w.len ∧ materialGridsSet w gs 0 U = some M) →
    ∃ M', (∃ w : Arr, offset gs ≤ w.len ∧ materialGridsSet w gs 0 U = some M') ∧ l.foldlM (numStep S heev reset gs du ep) ⟨u, M, cols⟩ =
      some ⟨u, M', cols ++ l.map fun k => List.zipWith (fun a b => (a - b) / du) (ek k) ep⟩ := by
  intro l
  induction l with
  | nil => exact fun _ M cols hM => ⟨M, hM, by simp⟩
  | cons k l ih =>
    intro hl M cols hM
    obtain ⟨w, hw, hMw⟩ := hM
    have hk := hl k (by simp)
    obtain ⟨e, he, hr⟩ := hread k hk
    obtain ⟨w1, w2⟩ := write_back (u := u) (k := k) (by omega) du
    have hstep : numStep S heev reset gs du ep ⟨u, M, cols⟩ k =
        some ⟨u, Uk k, cols ++ [List.zipWith (fun a b => (a - b) / du) (ek k) ep]⟩ := by
      unfold numStep
      simp only [w1, Option.bind_eq_bind, Option.bind_some]
      rw [set_over _ w gs U (by simpa [setEntry] using hu.ge) hw ha hd hMw, hUk k hk]
      simp only [Option.bind_some, he, hr, w2]
    obtain ⟨M', hM', hf⟩ := ih (fun k hk => hl k (by simp [hk])) (Uk k) (cols ++ [List.zipWith (fun a b => (a - b) / du) (ek k) ep])
      ⟨_, by simpa [setEntry] using hu.ge, hUk k hk⟩
    refine ⟨M', hM', ?_⟩
    rw [List.foldlM_cons, hstep]
    simp only [Option.bind_eq_bind, Option.bind_some]
    rw [hf]
    simp

theorem zip_map {α : Type} (l : List α) (f h : α → ℝ) (c : ℝ → ℝ → ℝ) : List.zipWith c (l.map f) (l.map h) = l.map fun a => c (f a) (h a) := by
  induction l with
  | nil => rfl
  | cons a l ih => simp [ih]

/-- Printed dielectric constants and indices: one line for each grid point, in order. -/
def Spec.LinesOf (S : Shape) (g : Geom) (bg : V3 ℝ → ℝ) (U : Mem) (n : ℕ) (lines : List DepsLine) : Prop :=
  lines.map DepsLine.index = List.range (S.nx * S.ny * S.nz) ∧
    ∀ x < S.nx, ∀ y < S.ny, ∀ z < S.nz, ∃ line, lines[(x * S.ny + y) * S.nz + z]? = some line ∧
      line.eps = shown g U bg (pointPos S g.size (x, y, z)) ∧ line.du.length = n

/-- The number printed for the grid point `(x, y, z)` and the grid value number `k`. -/
def Spec.entry (S : Shape) (lines : List DepsLine) (x y z k : ℕ) : Option ℝ := do
  let line ← lines[(x * S.ny + y) * S.nz + z]?
  line.du[k]?

theorem linesOf_map {S : Shape} {g : Geom} {bg : V3 ℝ → ℝ} {U : Mem} {n : ℕ} (L : ℕ × ℕ × ℕ → DepsLine)
    (h : ∀ q ∈ loop3 S.nx S.ny S.nz, (L q).index = flatIdx S q ∧ (L q).eps = shown g U bg (pointPos S g.size q) ∧ (L q).du.length = n) :
    LinesOf S g bg U n ((loop3 S.nx S.ny S.nz).map L) ∧
      ∀ x < S.nx, ∀ y < S.ny, ∀ z < S.nz, ∀ k, entry S ((loop3 S.nx S.ny S.nz).map L) x y z k = (L (x, y, z)).du[k]? := by
  have hget : ∀ x < S.nx, ∀ y < S.ny, ∀ z < S.nz, ((loop3 S.nx S.ny S.nz).map L)[(x * S.ny + y) * S.nz + z]? = some (L (x, y, z)) := by
    intro x hx y hy z hz
    have hq : (x, y, z) ∈ loop3 S.nx S.ny S.nz := mem_loop3.2 ⟨hx, hy, hz⟩
    have := loop3_getElem S hq
    rw [List.getElem?_map]
    rw [show (x * S.ny + y) * S.nz + z = flatIdx S (x, y, z) from rfl, this]
    rfl
  refine ⟨⟨?_, fun x hx y hy z hz => ⟨L (x, y, z), hget x hx y hy z hz, ?_⟩⟩, fun x hx y hy z hz k => ?_⟩
  · rw [List.map_map, ← loop3_map_addr]
    exact List.map_congr_left fun q hq => (h q hq).1
  · exact (h _ (mem_loop3.2 ⟨hx, hy, hz⟩)).2
  · unfold entry
    rw [hget x hx y hy z hz]
    rfl

/-- C106, the finite differences (complex-scalar build, one process; partial: pixels without averaged tensors).  For every geometry, every grid
values and every step `du ≠ 0` that keeps the dielectric constants positive, `print-material-grids-deps-du-numeric` prints one line for each
grid point with its dielectric constant and, for every grid value, the exact difference quotient of that dielectric constant; afterwards
all grid values are what they were and the dielectric function is again that of the grids. -/
theorem C106_numeric_partial (S : Shape) (hinv : S.inv = false) (g : Geom) (bg : V3 ℝ → ℝ) (U : Mem) (objs : List Mat)
    (ha : Allocated U (getMaterialGrids objs g.dflt)) (hda : DistinctArrays (getMaterialGrids objs g.dflt)) (heev : Heev)
    (reset : Mem → Option (ℕ → HMat)) (hreset : Pixels S g bg heev reset) (junk : ℕ → ℝ) (du : ℝ) (_hdu : du ≠ 0)
    (hpos : ∀ q ∈ visits S, ∀ e, g.eps U (pointPos S g.size q.pt) = some e → 0 < e)
    (hpos' : ∀ pre mg post, getMaterialGrids objs g.dflt = pre ++ mg :: post → ∀ i < mg.nx * mg.ny * mg.nz, ∀ q ∈ visits S, ∀ e,
      g.eps (setMem U mg.arr i ((U mg.arr).get i + du)) (pointPos S g.size q.pt) = some e → 0 < e) :
    ∃ lines e, depsDuN S heev reset U (getMaterialGrids objs g.dflt) junk du = some (lines, U, e) ∧ reset U = some e ∧
      LinesOf S g bg U (offset (getMaterialGrids objs g.dflt)) lines ∧
      ∀ x < S.nx, ∀ y < S.ny, ∀ z < S.nz, ∀ pre mg post, getMaterialGrids objs g.dflt = pre ++ mg :: post → ∀ i < mg.nx * mg.ny * mg.nz,
        entry S lines x y z (offset pre + i) = some ((shown g (setMem U mg.arr i ((U mg.arr).get i + du)) bg (pointPos S g.size (x, y, z)) -
          shown g U bg (pointPos S g.size (x, y, z))) / du) := by
  set gs := getMaterialGrids objs g.dflt with hgs
  obtain ⟨u, U', g1, s1, rfl⟩ := C51_get_set ⟨ntotAll gs, junk⟩ gs U (by rw [C51_total]) ha hda
  obtain ⟨u1, g1', g2, -, g4⟩ := get_spec U' gs 0 ⟨ntotAll gs, junk⟩ (by rw [C51_total]; simp) ha
  obtain rfl : u1 = u := by rw [g1] at g1'; exact (Option.some.inj g1').symm
  rw [C51_total] at g2
  have hu : u1.len = offset gs := g2
  -- the memory of the pass for value k
  have hM : ∀ k, ∃ M, k < offset gs → materialGridsSet (setEntry u1 k (u1.get k + du)) gs 0 U' = some M ∧
      (∀ q ∈ visits S, ∀ e, g.eps M (pointPos S g.size q.pt) = some e → 0 < e) ∧
      ∀ pre mg post i, gs = pre ++ mg :: post → i < mg.nx * mg.ny * mg.nz → k = offset pre + i → M = setMem U' mg.arr i ((U' mg.arr).get i + du) := by
    intro k
    by_cases hk : k < offset gs
    · obtain ⟨pre, mg, post, i, he, hi, rfl⟩ := exists_pos gs k hk
      have hval : u1.get (offset pre + i) = (U' mg.arr).get i := by
        have := g4 pre mg post he i hi
        rwa [Nat.zero_add] at this
      have h1 := fun t => set_setEntry u1 gs U' hu.ge ha hda s1 he hi t
      refine ⟨setMem U' mg.arr i ((U' mg.arr).get i + du), fun _ => ⟨by rw [hval]; exact h1 _, hpos' pre mg post he i hi, ?_⟩⟩
      intro pre' mg' post' i' he' hi' hk'
      have h2 := set_setEntry u1 gs U' hu.ge ha hda s1 he' hi' ((U' mg'.arr).get i' + du)
      have hval' : u1.get (offset pre' + i') = (U' mg'.arr).get i' := by
        have := g4 pre' mg' post' he' i' hi'
        rwa [Nat.zero_add] at this
      rw [← hval', ← hk', h1, hval] at h2
      rw [← hval', ← hk', hval]
      exact Option.some.inj h2
    · exact ⟨U', fun h => absurd h hk⟩
  choose Uk hUk using hM
  obtain ⟨e, he, hm⟩ := hreset U' hpos
  obtain ⟨hread0, -⟩ := readAll_eq hinv (F := fun q => shown g U' bg (pointPos S g.size q)) hm
  have hread : ∀ k < offset gs, ∃ e, reset (Uk k) = some e ∧ readAll S heev e =
      some ((loop3 S.nx S.ny S.nz).map fun q => shown g (Uk k) bg (pointPos S g.size q)) := by
    intro k hk
    obtain ⟨e, he, hm⟩ := hreset (Uk k) (hUk k hk).2.1
    exact ⟨e, he, (readAll_eq hinv (F := fun q => shown g (Uk k) bg (pointPos S g.size q)) hm).1⟩
  obtain ⟨M', ⟨w, hw, hMw⟩, hfold⟩ := num_fold ha hda hu (fun k hk => (hUk k hk).1) hread
    ((loop3 S.nx S.ny S.nz).map fun q => shown g U' bg (pointPos S g.size q)) (List.range (offset gs)) (fun k hk => List.mem_range.1 hk) U' []
    ⟨u1, hu.ge, s1⟩
  have hback : materialGridsSet u1 gs 0 M' = some U' := by rw [set_over u1 w gs U' hu.ge hw ha hda hMw, s1]
  have hlines : ∀ q ∈ loop3 S.nx S.ny S.nz, ((loop3 S.nx S.ny S.nz).map fun q => shown g U' bg (pointPos S g.size q)).getD (flatIdx S q) 0 =
      shown g U' bg (pointPos S g.size q) ∧ ∀ k, ((loop3 S.nx S.ny S.nz).map fun q => (shown g (Uk k) bg (pointPos S g.size q) -
        shown g U' bg (pointPos S g.size q)) / du).getD (flatIdx S q) 0 = (shown g (Uk k) bg (pointPos S g.size q) - shown g U' bg (pointPos S g.size q)) / du := by
    intro q hq
    have := loop3_getElem S hq
    refine ⟨?_, fun k => ?_⟩ <;> rw [List.getD_eq_getElem?_getD, List.getElem?_map, this] <;> rfl
  obtain ⟨L1, L2⟩ := linesOf_map (S := S) (g := g) (bg := bg) (U := U') (n := offset gs)
    (fun q => ⟨((loop3 S.nx S.ny S.nz).map fun q => shown g U' bg (pointPos S g.size q)).getD (flatIdx S q) 0, flatIdx S q,
      (List.range (offset gs)).map fun k => ((loop3 S.nx S.ny S.nz).map fun q => (shown g (Uk k) bg (pointPos S g.size q) -
        shown g U' bg (pointPos S g.size q)) / du).getD (flatIdx S q) 0⟩)
    (fun q hq => ⟨rfl, (hlines q hq).1, by simp⟩)
  refine ⟨_, e, ?_, he, L1, ?_⟩
  · unfold depsDuN
    simp only [g1, Option.bind_eq_bind, Option.bind_some, he, hread0]
    rw [C51_total, hfold]
    simp only [Option.bind_some, hback, he, List.nil_append, zip_map, List.map_map]
    rfl
  · intro x hx y hy z hz pre mg post hp i hi
    have hk : offset pre + i < offset gs := by
      rw [hp, offset_append, offset_cons]
      have : i < mg.ntot := hi
      omega
    rw [L2 x hx y hy z hz]
    dsimp only
    rw [List.getElem?_map, List.getElem?_range hk]
    simp only [Option.map_some]
    rw [(hlines (x, y, z) (mem_loop3.2 ⟨hx, hy, hz⟩)).2, (hUk _ hk).2.2 pre mg post i hp hi rfl]

/-- How the dielectric constant shown at a good point depends on a grid value. -/
theorem shown_deriv {g : Geom} {U : Mem} {objs : List Mat} (hda : DistinctArrays (getMaterialGrids objs g.dflt)) (bg : V3 ℝ → ℝ) {p : V3 ℝ}
    (gp : GoodPoint g U objs p) (gpos : ∀ e, g.eps U p = some e → 0 < e) {pre post : List MGrid} {mg : MGrid}
    (he : getMaterialGrids objs g.dflt = pre ++ mg :: post) {i : ℕ} (hi : i < mg.nx * mg.ny * mg.nz) :
    HasDerivAt (fun t => shown g (setMem U mg.arr i t) bg p) (dEps g U mg i p) ((U mg.arr).get i) ∧
      ∀ᶠ t in 𝓝 ((U mg.arr).get i), ∀ e, g.eps (setMem U mg.arr i t) p = some e → 0 < e := by
  obtain ⟨_, -, -, hw⟩ := addPoint_deriv hda gp ⟨offset (getMaterialGrids objs g.dflt), fun _ => 0⟩ le_rfl 0
  obtain ⟨-, hd, halt⟩ := hw pre mg post he i hi
  unfold shown
  rcases halt with hnone | ⟨f, hf⟩
  · simp only [hnone, Option.getD_none] at hd ⊢
    have e0 : dEps g U mg i p = 0 := hd.unique (hasDerivAt_const _ _)
    rw [e0]
    exact ⟨hasDerivAt_const _ _, Filter.Eventually.of_forall (fun t e h => by cases h)⟩
  · simp only [hf, Option.getD_some] at hd ⊢
    refine ⟨hd, ?_⟩
    have hp : 0 < f ((U mg.arr).get i) := by
      apply gpos
      have := hf ((U mg.arr).get i)
      rwa [setMem_self] at this
    filter_upwards [hd.continuousAt.eventually (lt_mem_nhds hp)] with t ht e h
    rw [← Option.some.inj h]
    exact ht

/-- C106, the derivatives (complex-scalar build, one process; partial: pixels without averaged tensors, the conditions of C50 at every grid point).
`print-material-grids-deps-du` prints one line for each grid point with its dielectric constant and, for every grid value, the exact
derivative of that dielectric constant. -/
theorem C106_printed_partial (S : Shape) (hinv : S.inv = false) (g : Geom) (bg : V3 ℝ → ℝ) (U : Mem) (objs : List Mat)
    (hda : DistinctArrays (getMaterialGrids objs g.dflt)) (heev : Heev) (reset : Mem → Option (ℕ → HMat)) (hreset : Pixels S g bg heev reset)
    (hgood : ∀ x < S.nx, ∀ y < S.ny, ∀ z < S.nz, GoodPoint g U objs (pointPos S g.size (x, y, z)) ∧
      ∀ e, g.eps U (pointPos S g.size (x, y, z)) = some e → 0 < e) :
    ∃ epsInv lines, reset U = some epsInv ∧ depsDu S g U objs heev epsInv = some lines ∧
      LinesOf S g bg U (offset (getMaterialGrids objs g.dflt)) lines ∧
      ∀ x < S.nx, ∀ y < S.ny, ∀ z < S.nz, ∀ pre mg post, getMaterialGrids objs g.dflt = pre ++ mg :: post → ∀ i < mg.nx * mg.ny * mg.nz,
        ∃ d, entry S lines x y z (offset pre + i) = some d ∧
          HasDerivAt (fun t => shown g (setMem U mg.arr i t) bg (pointPos S g.size (x, y, z))) d ((U mg.arr).get i) := by
  set gs := getMaterialGrids objs g.dflt with hgs
  have hcell : ∀ q ∈ loop3 S.nx S.ny S.nz, GoodPoint g U objs (pointPos S g.size q) ∧ ∀ e, g.eps U (pointPos S g.size q) = some e → 0 < e := by
    intro q hq
    obtain ⟨a, b, c⟩ := mem_loop3.1 hq
    exact hgood q.1 a q.2.1 b q.2.2 c
  have hpos : ∀ q ∈ visits S, ∀ e, g.eps U (pointPos S g.size q.pt) = some e → 0 < e := by
    intro q hq
    rw [visits_full (by rw [hinv]; simp)] at hq
    obtain ⟨t, ht, rfl⟩ := List.mem_map.1 hq
    exact (hcell t ht).2
  obtain ⟨epsInv, hr, hm⟩ := hreset U hpos
  obtain ⟨-, hmean⟩ := readAll_eq hinv (F := fun q => shown g U bg (pointPos S g.size q)) hm
  have hv : ∀ q, ∃ v : Arr, q ∈ loop3 S.nx S.ny S.nz → g.addPoint U gs ⟨ntotAll gs, fun _ => 0⟩ (pointPos S g.size q) 1 = some v ∧
      ∀ pre mg post, gs = pre ++ mg :: post → ∀ i < mg.nx * mg.ny * mg.nz, v.get (offset pre + i) = dEps g U mg i (pointPos S g.size q) := by
    intro q
    by_cases hq : q ∈ loop3 S.nx S.ny S.nz
    · obtain ⟨v, h1, -, h3⟩ := addPoint_deriv hda (hcell q hq).1 ⟨ntotAll gs, fun _ => 0⟩ (by rw [C51_total]) 1
      exact ⟨v, fun _ => ⟨h1, fun pre mg post he i hi => by rw [(h3 pre mg post he i hi).1]; simp⟩⟩
    · exact ⟨⟨0, fun _ => 0⟩, fun h => absurd h hq⟩
  choose v hv using hv
  obtain ⟨L1, L2⟩ := linesOf_map (S := S) (g := g) (bg := bg) (U := U) (n := offset gs)
    (fun q => ⟨shown g U bg (pointPos S g.size q), flatIdx S q, (List.range (offset gs)).map (v q).get⟩) (fun q hq => ⟨rfl, rfl, by simp⟩)
  refine ⟨epsInv, _, hr, ?_, L1, ?_⟩
  · unfold depsDu
    dsimp only
    rw [← hgs]
    refine mapM_all _ fun q hq => ?_
    rw [(hv q hq).1, hmean q hq, C51_total]
    rfl
  · intro x hx y hy z hz pre mg post hp i hi
    have hq : (x, y, z) ∈ loop3 S.nx S.ny S.nz := mem_loop3.2 ⟨hx, hy, hz⟩
    have hk : offset pre + i < offset gs := by
      rw [hp, offset_append, offset_cons]
      have : i < mg.ntot := hi
      omega
    refine ⟨dEps g U mg i (pointPos S g.size (x, y, z)), ?_, (shown_deriv hda bg (hcell _ hq).1 (hcell _ hq).2 hp hi).1⟩
    rw [L2 x hx y hy z hz]
    dsimp only
    rw [List.getElem?_map, List.getElem?_range hk]
    simp only [Option.map_some]
    rw [(hv _ hq).2 pre mg post hp i hi]

/-- C106, the comparison of the two printouts (as above): the numbers of `print-material-grids-deps-du-numeric` tend to those of
`print-material-grids-deps-du` as the step tends to 0, for every grid point and every grid value. -/
theorem C106_agree_partial (S : Shape) (hinv : S.inv = false) (g : Geom) (bg : V3 ℝ → ℝ) (U : Mem) (objs : List Mat)
    (ha : Allocated U (getMaterialGrids objs g.dflt)) (hda : DistinctArrays (getMaterialGrids objs g.dflt)) (heev : Heev)
    (reset : Mem → Option (ℕ → HMat)) (hreset : Pixels S g bg heev reset) (junk : ℕ → ℝ)
    (hgood : ∀ x < S.nx, ∀ y < S.ny, ∀ z < S.nz, GoodPoint g U objs (pointPos S g.size (x, y, z)) ∧
      ∀ e, g.eps U (pointPos S g.size (x, y, z)) = some e → 0 < e) :
    ∃ epsInv lines, reset U = some epsInv ∧ depsDu S g U objs heev epsInv = some lines ∧
      ∀ x < S.nx, ∀ y < S.ny, ∀ z < S.nz, ∀ k < offset (getMaterialGrids objs g.dflt), ∃ (d : ℝ) (F : ℝ → ℝ), entry S lines x y z k = some d ∧
        Tendsto F (𝓝[≠] 0) (𝓝 d) ∧
        ∀ᶠ du in 𝓝[≠] 0, ∃ r, depsDuN S heev reset U (getMaterialGrids objs g.dflt) junk du = some r ∧ entry S r.1 x y z k = some (F du) := by
  set gs := getMaterialGrids objs g.dflt with hgs
  obtain ⟨epsInv, lines, hr, hl, -, hL⟩ := C106_printed_partial S hinv g bg U objs hda heev reset hreset hgood
  refine ⟨epsInv, lines, hr, hl, fun x hx y hy z hz k hk => ?_⟩
  obtain ⟨pre, mg, post, i, he, hi, rfl⟩ := exists_pos gs k hk
  obtain ⟨d, hd, hder⟩ := hL x hx y hy z hz pre mg post he i hi
  refine ⟨d, fun du => (shown g (setMem U mg.arr i ((U mg.arr).get i + du)) bg (pointPos S g.size (x, y, z)) -
    shown g U bg (pointPos S g.size (x, y, z))) / du, hd, ?_, ?_⟩
  · have := hder.tendsto_slope_zero
    simp only [setMem_self, smul_eq_mul] at this
    refine this.congr fun t => ?_
    rw [inv_mul_eq_div]
  · have hcell : ∀ q ∈ visits S, GoodPoint g U objs (pointPos S g.size q.pt) ∧ ∀ e, g.eps U (pointPos S g.size q.pt) = some e → 0 < e := by
      intro q hq
      rw [visits_full (by rw [hinv]; simp)] at hq
      obtain ⟨t, ht, rfl⟩ := List.mem_map.1 hq
      obtain ⟨a, b, c⟩ := mem_loop3.1 ht
      exact hgood t.1 a t.2.1 b t.2.2 c
    have hall : ∀ᶠ du in 𝓝 (0 : ℝ), ∀ mg ∈ {mg | mg ∈ gs}, ∀ i ∈ Finset.range (mg.nx * mg.ny * mg.nz), ∀ q ∈ {q | q ∈ visits S}, ∀ e,
        g.eps (setMem U mg.arr i ((U mg.arr).get i + du)) (pointPos S g.size q.pt) = some e → 0 < e := by
      refine (Filter.eventually_all_finite (List.finite_toSet _)).2 fun mg hmg => (Filter.eventually_all_finset _).2 fun i hi =>
        (Filter.eventually_all_finite (List.finite_toSet _)).2 fun q hq => ?_
      obtain ⟨pre, post, he⟩ := List.append_of_mem hmg
      have h1 := (shown_deriv hda bg (hcell q hq).1 (hcell q hq).2 he (Finset.mem_range.1 hi)).2
      have h2 : Tendsto (fun du : ℝ => (U mg.arr).get i + du) (𝓝 0) (𝓝 ((U mg.arr).get i)) := by
        have : Continuous fun du : ℝ => (U mg.arr).get i + du := by fun_prop
        simpa using this.tendsto 0
      exact h2.eventually h1
    filter_upwards [hall.filter_mono nhdsWithin_le_nhds, self_mem_nhdsWithin] with du h1 h2
    obtain ⟨lines', e, n1, n2, n3, n4⟩ := C106_numeric_partial S hinv g bg U objs ha hda heev reset hreset junk du h2 (fun q hq => (hcell q hq).2)
      (fun pre' mg' post' he' i' hi' q hq => h1 mg' (show mg' ∈ gs by rw [hgs, he']; simp) i' (Finset.mem_range.2 hi') q hq)
    exact ⟨_, n1, n4 x hx y hy z hz pre mg post he i hi⟩

/-- C106 fails in the inversion-symmetric build: whenever the last dimension has more than two grid points, both functions read the array of
dielectric tensors, which holds only half of the points, beyond its end (mpb/material_grid.c:608, 647), for every geometry and grid. -/
theorem C106_half_refuted (S : Shape) (hS : S.Ok) (hinv : S.inv = true) (hl : 3 ≤ if S.nz > 1 then S.nz else if S.ny > 1 then S.ny else S.nx)
    (g : Geom) (U : Mem) (objs : List Mat) (heev : Heev) (epsInv : ℕ → HMat) (reset : Mem → Option (ℕ → HMat)) (grids : List MGrid) (junk : ℕ → ℝ) (du : ℝ) :
    depsDu S g U objs heev epsInv = none ∧ depsDuN S heev reset U grids junk du = none := by
  have hlt : S.outSize < S.nx * S.ny * S.nz := by
    have h1 := hS.last hinv
    unfold Shape.nlast at h1
    have hx := hS.nx; have hy := hS.ny; have hz := hS.nz
    have hdvd : S.other * S.last = S.nx * S.ny * S.nz := by
      unfold Shape.other Shape.last
      refine Nat.div_mul_cancel ?_
      split_ifs
      · exact Dvd.intro_left _ rfl
      · exact Dvd.dvd.mul_right (Dvd.intro_left _ rfl) _
      · exact Dvd.dvd.mul_right (Dvd.intro _ rfl) _
    have hlast : 3 ≤ S.last := hl
    have ho : 0 < S.other := by
      rcases Nat.eq_zero_or_pos S.other with h | h
      · rw [h, zero_mul] at hdvd
        have : 0 < S.nx * S.ny * S.nz := by positivity
        omega
      · exact h
    have h2 : S.lastDimSize < S.last * 2 := by
      have : S.lastDimSize / 2 = S.last / 2 + 1 := h1
      omega
    unfold Shape.outSize
    rw [if_pos hinv, Nat.div_lt_iff_lt_mul (by norm_num), ← hdvd, mul_assoc]
    exact Nat.mul_lt_mul_of_pos_left h2 ho
  obtain ⟨q, hq, hi⟩ : ∃ q ∈ loop3 S.nx S.ny S.nz, flatIdx S q = S.outSize := by
    have : S.outSize ∈ (loop3 S.nx S.ny S.nz).map (flatIdx S) := by
      rw [show (loop3 S.nx S.ny S.nz).map (flatIdx S) = List.range (S.nx * S.ny * S.nz) from loop3_map_addr _ _ _]
      exact List.mem_range.2 hlt
    exact List.mem_map.1 this
  have hbad : ∀ e, meanAt S heev e (flatIdx S q) = none := by
    intro e
    unfold meanAt
    rw [hi, if_neg (lt_irrefl _)]
  constructor
  · unfold depsDu
    dsimp only
    refine mapM_fails _ hq ?_
    rw [hbad]
    cases g.addPoint U (getMaterialGrids objs g.dflt) ⟨ntotAll (getMaterialGrids objs g.dflt), fun _ => 0⟩ (pointPos S g.size q) 1 <;> rfl
  · have hr : ∀ e, readAll S heev e = none := fun e => mapM_fails _ hq (hbad e)
    unfold depsDuN
    cases materialGridsGet U grids 0 ⟨ntotAll grids, junk⟩ with
    | none => rfl
    | some u =>
      simp only [Option.bind_eq_bind, Option.bind_some]
      cases reset U with
      | none => rfl
      | some e => simp only [Option.bind_some, hr, Option.bind_none]

/-- The run of `material-grids-approx-gradient`. -/
theorem approx_run (gs : List MGrid) (hda : DistinctArrays gs) (reset : Mem → Option (ℕ → HMat)) (solve : (ℕ → HMat) → List ℝ)
    (grad : RunSt → Arr → Option Arr) (hgrad : ∀ st v, ∃ w, grad st v = some w ∧ w.len = v.len) (st : RunSt) (ha : Allocated st.mem gs)
    (e0 : ℕ → HMat) (hcur : reset st.mem = some e0) (pre : List MGrid) (mg : MGrid) (post : List MGrid) (he : gs = pre ++ mg :: post) (i : ℕ)
    (hi : i < mg.nx * mg.ny * mg.nz) (du : ℝ) (e' : ℕ → HMat) (he' : reset (setMem st.mem mg.arr i ((st.mem mg.arr).get i + du)) = some e')
    (b : ℕ) (f0 f1 : ℝ) (hf0 : (solve st.eps)[b]? = some f0) (hf1 : (solve e')[b]? = some f1) :
    ∃ dfdu, approxGradient gs reset solve grad (b + 1) (offset pre + i : ℕ) du st =
      some ((f1 - f0) / du, dfdu, { mem := st.mem, eps := e0, freqs := solve e' }) := by
  have hk : offset pre + i < offset gs := by
    rw [he, offset_append, offset_cons]
    have : i < mg.ntot := hi
    omega
  obtain ⟨w, w1, w2⟩ := hgrad { st with freqs := solve st.eps } ⟨ntotAll gs, fun _ => 0⟩
  have w2' : w.len = offset gs := by rw [w2, C51_total]
  obtain ⟨u, U', g1, s1, hUU⟩ := C51_get_set w gs st.mem w2'.ge ha hda
  rw [hUU] at s1
  obtain ⟨u1, g1', g2, -, g4⟩ := get_spec st.mem gs 0 w (by omega) ha
  obtain rfl : u1 = u := by rw [g1] at g1'; exact (Option.some.inj g1').symm
  have hu : u1.len = offset gs := g2.trans w2'
  have hval : u1.get (offset pre + i) = (st.mem mg.arr).get i := by
    have := g4 pre mg post he i hi
    rwa [Nat.zero_add] at this
  obtain ⟨wb1, wb2⟩ := write_back (u := u1) (k := offset pre + i) (by omega) du
  have hs := set_setEntry u1 gs st.mem hu.ge ha hda s1 he hi (u1.get (offset pre + i) + du)
  have hb := set_over u1 (setEntry u1 (offset pre + i) (u1.get (offset pre + i) + du)) gs st.mem hu.ge (by simpa [setEntry] using hu.ge) ha hda hs
  rw [s1] at hb
  have item : ∀ (fs : List ℝ) (f : ℝ), fs[b]? = some f → MatOpt.freqItem fs ((b : ℤ) + 1) = some f := by
    intro fs f h
    unfold MatOpt.freqItem
    rw [if_pos (by omega), show ((b : ℤ) + 1 - 1).toNat = b by omega, h]
  have hread : w.readZ ((offset pre + i : ℕ) : ℤ) = some (w.get (offset pre + i)) := by
    unfold Arr.readZ
    rw [if_pos ⟨by positivity, by rw [w2']; exact_mod_cast hk⟩, Int.toNat_natCast]
  rw [← hval] at he'
  refine ⟨w.get (offset pre + i), ?_⟩
  unfold approxGradient
  dsimp only
  rw [item _ _ hf0]
  simp only [Option.bind_eq_bind, Option.bind_some, w1, hread, g1, Int.toNat_natCast, wb1, hs, he']
  rw [item _ _ hf1]
  simp only [Option.bind_some, wb2, hb, hcur]

/-- C106, the derivative of a frequency by finite differences (partial: the dielectric function in use must be that of the grids, and `iu` and
`band` must be in range; see `C106_stale_refuted` and `C106_index_refuted`).  For every list of grids, every way `solve` in which the
frequencies depend on the dielectric function, and every step: the value returned is the difference quotient of the frequency of the band,
all grid values are what they were and the dielectric function is again that of the grids.  The list of frequencies it leaves is that of
the *changed* structure (see `C106_frequencies_refuted`). -/
theorem C106_approx_partial (gs : List MGrid) (hda : DistinctArrays gs) (reset : Mem → Option (ℕ → HMat)) (solve : (ℕ → HMat) → List ℝ)
    (grad : RunSt → Arr → Option Arr) (hgrad : ∀ st v, ∃ w, grad st v = some w ∧ w.len = v.len) (st : RunSt) (ha : Allocated st.mem gs)
    (hcur : reset st.mem = some st.eps) (pre : List MGrid) (mg : MGrid) (post : List MGrid) (he : gs = pre ++ mg :: post) (i : ℕ)
    (hi : i < mg.nx * mg.ny * mg.nz) (du : ℝ) (e' : ℕ → HMat) (he' : reset (setMem st.mem mg.arr i ((st.mem mg.arr).get i + du)) = some e')
    (b : ℕ) (f0 f1 : ℝ) (hf0 : (solve st.eps)[b]? = some f0) (hf1 : (solve e')[b]? = some f1) :
    ∃ dfdu, approxGradient gs reset solve grad (b + 1) (offset pre + i : ℕ) du st =
      some ((f1 - f0) / du, dfdu, { mem := st.mem, eps := st.eps, freqs := solve e' }) :=
  approx_run gs hda reset solve grad hgrad st ha st.eps hcur pre mg post he i hi du e' he' b f0 f1 hf0 hf1

/-- A homogeneous cell: `ε = 1 + 11 u`, one frequency `1/√ε`. -/
noncomputable def reset1 (U : Mem) : Option (ℕ → HMat) := some fun _ => Tensor.Spec.iso (1 / ((U 0).get 0 * 11 + 1))

/-- The frequency `√(1/ε)`. -/
noncomputable def solve1 (e : ℕ → HMat) : List ℝ := [Real.sqrt (e 0).m00]

theorem solve1_iso (x : ℝ) : solve1 (fun _ => Tensor.Spec.iso x) = [Real.sqrt x] := rfl

theorem sqrt_quarter : Real.sqrt (1 / 4) = 1 / 2 := by
  rw [show (1 / 4 : ℝ) = (1 / 2) ^ 2 by norm_num]
  exact Real.sqrt_sq (by norm_num)

/-- C106 fails for the frequencies: a homogeneous cell with `ε = 1 + 11 u` at `u = 0`, frequency 1.  After `material-grids-approx-gradient` with
the step 3/11 the grid holds 0 and the dielectric constant is 1 again, but the list of frequencies holds 1/2, that of `ε = 4`. -/
theorem C106_frequencies_refuted : ∃ (st st' : RunSt) (v d : ℝ), reset1 st.mem = some st.eps ∧ st.freqs = [1] ∧ solve1 st.eps = [1] ∧
    approxGradient [grid1 .uSum] reset1 solve1 (fun _ v => some v) 1 0 (3 / 11) st = some (v, d, st') ∧ st'.mem = st.mem ∧ st'.eps = st.eps ∧
    st'.freqs = [1 / 2] := by
  have e0 : reset1 (mem1 0) = some fun _ => Tensor.Spec.iso 1 := by simp [reset1, mem1]
  have s0 : solve1 (fun _ => Tensor.Spec.iso 1) = [1] := by rw [solve1_iso, Real.sqrt_one]
  have e1 : reset1 (setMem (mem1 0) (grid1 .uSum).arr 0 ((mem1 0 (grid1 .uSum).arr).get 0 + 3 / 11)) = some fun _ => Tensor.Spec.iso (1 / 4) := by
    simp [reset1, mem1, setMem, setEntry, grid1]
    norm_num
  have s1 : solve1 (fun _ => Tensor.Spec.iso (1 / 4)) = [1 / 2] := by rw [solve1_iso, sqrt_quarter]
  obtain ⟨d, h⟩ := C106_approx_partial [grid1 .uSum] (by simp [DistinctArrays]) reset1 solve1 (fun _ v => some v) (fun _ v => ⟨v, rfl, rfl⟩)
    ⟨mem1 0, fun _ => Tensor.Spec.iso 1, [1]⟩ (mem1_alloc 0) e0 [] (grid1 .uSum) [] rfl 0 (by decide) (3 / 11) _ e1 0 1 (1 / 2)
    (by rw [s0]; rfl) (by rw [s1]; rfl)
  exact ⟨_, _, _, _, e0, rfl, s0, h, rfl, rfl, s1⟩

/-- C106 fails if the grids were changed since the dielectric function was computed: the grid holds 0 (frequency 1) but the dielectric function
in use is that of `ε = 4`.  The difference quotient for the step 3/11 is -11/6; the value returned is 0. -/
theorem C106_stale_refuted : ∃ (st st' : RunSt) (d : ℝ) (e0 e1 : ℕ → HMat), reset1 st.mem = some e0 ∧ st.mem = mem1 0 ∧ solve1 e0 = [1] ∧
    reset1 (setMem (mem1 0) 0 0 (3 / 11)) = some e1 ∧ solve1 e1 = [1 / 2] ∧ ((1 / 2 : ℝ) - 1) / (3 / 11) = -11 / 6 ∧
    approxGradient [grid1 .uSum] reset1 solve1 (fun _ v => some v) 1 0 (3 / 11) st = some (0, d, st') := by
  have e0 : reset1 (mem1 0) = some fun _ => Tensor.Spec.iso 1 := by simp [reset1, mem1]
  have s0 : solve1 (fun _ => Tensor.Spec.iso 1) = [1] := by rw [solve1_iso, Real.sqrt_one]
  have e1 : reset1 (setMem (mem1 0) (grid1 .uSum).arr 0 ((mem1 0 (grid1 .uSum).arr).get 0 + 3 / 11)) = some fun _ => Tensor.Spec.iso (1 / 4) := by
    simp [reset1, mem1, setMem, setEntry, grid1]
    norm_num
  have s1 : solve1 (fun _ => Tensor.Spec.iso (1 / 4)) = [1 / 2] := by rw [solve1_iso, sqrt_quarter]
  obtain ⟨d, h⟩ := approx_run [grid1 .uSum] (by simp [DistinctArrays]) reset1 solve1 (fun _ v => some v) (fun _ v => ⟨v, rfl, rfl⟩)
    ⟨mem1 0, fun _ => Tensor.Spec.iso (1 / 4), [1]⟩ (mem1_alloc 0) _ e0 [] (grid1 .uSum) [] rfl 0 (by decide) (3 / 11) _ e1 0 (1 / 2) (1 / 2)
    (by dsimp only; rw [s1]; rfl) (by rw [s1]; rfl)
  rw [show ((1 : ℝ) / 2 - 1 / 2) / (3 / 11) = 0 by norm_num] at h
  refine ⟨_, _, _, _, _, e0, rfl, s0, ?_, s1, by norm_num, h⟩
  simpa [mem1, grid1] using e1

/-- C106 fails for an index out of range: whatever the grids, `iu < 0` or `iu` not below the number of grid values is not rejected, and the
array of that many numbers is read and written outside (mpb/material_grid.c:484-488). -/
theorem C106_index_refuted (gs : List MGrid) (reset : Mem → Option (ℕ → HMat)) (solve : (ℕ → HMat) → List ℝ)
    (grad : RunSt → Arr → Option Arr) (hgrad : ∀ st v w, grad st v = some w → w.len = v.len) (band iu : ℤ) (h : iu < 0 ∨ (offset gs : ℤ) ≤ iu) (du : ℝ)
    (st : RunSt) : approxGradient gs reset solve grad band iu du st = none := by
  unfold approxGradient
  dsimp only
  cases MatOpt.freqItem (solve st.eps) band with
  | none => rfl
  | some f0 =>
    simp only [Option.bind_eq_bind, Option.bind_some]
    cases hw : grad { st with freqs := solve st.eps } ⟨ntotAll gs, fun _ => 0⟩ with
    | none => rfl
    | some w =>
      have hl := hgrad _ _ _ hw
      rw [C51_total] at hl
      have : w.readZ iu = none := by
        unfold Arr.readZ
        rw [if_neg (by dsimp only at hl; omega)]
      simp only [Option.bind_some, this, Option.bind_none]

/-- Non-vacuity: one grid of one value in a cell of one grid point; `ε = 1 + 11 u` at `u = 0`, and a step of 1. -/
example (heev : Heev) (hh : HeevOk heev) (junk : ℕ → ℝ) :
    ∃ reset epsInv lines r, reset (mem1 0) = some epsInv ∧
      depsDu shape1 (geom1 (fun _ => true) true) (mem1 0) [.grid (grid1 .uSum)] heev epsInv = some lines ∧
      entry shape1 lines 0 0 0 0 = some 11 ∧ depsDuN shape1 heev reset (mem1 0) [grid1 .uSum] junk 1 = some r ∧ entry shape1 r.1 0 0 0 0 = some 11 := by
  set g := geom1 (fun _ => true) true with hg
  set reset : Mem → Option (ℕ → HMat) := fun U => some (fun _ => Tensor.Spec.iso (1 / (shown g U (fun _ => 1) ⟨0, 0, 0⟩))) with hreset
  have hsame : ∀ U p, g.eps U p = g.eps U ⟨0, 0, 0⟩ := by
    intro U p
    rw [hg]
    unfold Geom.eps geom1
    simp only [if_true]
    rfl
  have hP : Pixels shape1 g (fun _ => 1) heev reset := by
    intro U hpos
    refine ⟨_, rfl, fun q hq => ?_⟩
    have h0 : 0 < shown g U (fun _ => 1) ⟨0, 0, 0⟩ := by
      unfold shown
      have := hpos q hq
      rw [hsame] at this
      cases h : g.eps U ⟨0, 0, 0⟩ with
      | none => exact one_pos
      | some e => exact this e h
    rw [C85_isotropic hh h0]
    unfold shown
    rw [hsame U (pointPos shape1 g.size q.pt)]
  have hgood := geom1_good (fun _ => true) true (u := 0) (by norm_num)
  have hda := geom1_distinct (fun _ => true) true
  have hgs : getMaterialGrids [.grid (grid1 .uSum)] g.dflt = [grid1 .uSum] := geom1_grids
  have hpos : ∀ p e, g.eps (mem1 0) p = some e → 0 < e := by
    intro p e h
    rw [hg, geom1_eps'] at h
    rw [← Option.some.inj h]
    norm_num
  have hsh : ∀ t p, shown g (setMem (mem1 0) 0 0 t) (fun _ => 1) p = t * 11 + 1 := by
    intro t p
    unfold shown
    rw [hg, geom1_eps]
    rfl
  have hsh0 : ∀ p, shown g (mem1 0) (fun _ => 1) p = 1 := by
    intro p
    unfold shown
    rw [hg, geom1_eps']
    simp
  obtain ⟨epsInv, lines, h1, h2, -, h4⟩ := C106_printed_partial shape1 rfl g (fun _ => 1) (mem1 0) [.grid (grid1 .uSum)] hda heev reset hP
    (fun x _ y _ z _ => ⟨hgood _, hpos _⟩)
  obtain ⟨lines', e, n1, -, -, n4⟩ := C106_numeric_partial shape1 rfl g (fun _ => 1) (mem1 0) [.grid (grid1 .uSum)] (by rw [hgs]; exact mem1_alloc 0)
    hda heev reset hP junk 1 one_ne_zero (fun q _ => hpos _) (by
      intro pre mg post he i hi q hq e h
      rw [hgs] at he
      have hm : mg ∈ [grid1 .uSum] := by rw [he]; simp
      rw [List.mem_singleton] at hm
      subst hm
      have : i = 0 := by simp [grid1] at hi; exact hi
      subst this
      change g.eps (setMem (mem1 0) 0 0 ((mem1 0 0).get 0 + 1)) _ = _ at h
      rw [hg, geom1_eps] at h
      rw [← Option.some.inj h]
      simp [mem1]
      norm_num)
  refine ⟨reset, epsInv, lines, _, h1, h2, ?_, by rw [← hgs]; exact n1, ?_⟩
  · obtain ⟨d, d1, d2⟩ := h4 0 (by decide) 0 (by decide) 0 (by decide) [] (grid1 .uSum) [] (by rw [hgs]; rfl) 0 (by decide)
    change HasDerivAt (fun t => shown g (setMem (mem1 0) 0 0 t) (fun _ => 1) (pointPos shape1 g.size (0, 0, 0))) d _ at d2
    simp only [hsh] at d2
    have d3 := ((hasDerivAt_id ((mem1 0 (grid1 .uSum).arr).get 0)).mul_const 11).add_const 1
    rw [one_mul] at d3
    rw [← d2.unique d3]
    exact d1
  · have := n4 0 (by decide) 0 (by decide) 0 (by decide) [] (grid1 .uSum) [] (by rw [hgs]; rfl) 0 (by decide)
    refine this.trans ?_
    change some ((shown g (setMem (mem1 0) 0 0 ((mem1 0 0).get 0 + 1)) _ _ - _) / 1) = _
    rw [hsh, hsh0]
    simp [mem1]

end Mpb.MatGrid

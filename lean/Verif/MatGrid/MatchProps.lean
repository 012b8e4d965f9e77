import Verif.MatGrid.MatchModel
import Verif.MatGrid.FreqCases
import Verif.MatGrid.ListProps
import Verif.MatGrid.InterpProps
import Verif.Field.SumProps
import Verif.Epsilon.Stats

/-! # Property C87: matching a dielectric function from a file -/

namespace Mpb.MatGrid
open Mpb.Field Mpb.Maxwell Mpb.Tensor Mpb.Epsilon Spec Filter Topology

namespace Spec

/-- The dielectric constant shown at a point: that of the grids, `bg` where the material is not a grid. -/
noncomputable def shown (g : Geom) (U : Mem) (bg : V3 ℝ → ℝ) (p : V3 ℝ) : ℝ := (g.eps U p).getD (bg p)

/-- The dielectric constant of the file at the centre of the pixel: linear interpolation, mirrored at the boundaries. -/
noncomputable def target (S : Shape) (T : Target) (q : ℕ × ℕ × ℕ) : ℝ :=
  mirrorInterp T.eps T.nx T.ny T.nz 1 ⟨(q.1 + 1 / 2) / S.nx, (q.2.1 + 1 / 2) / S.ny, (q.2.2 + 1 / 2) / S.nz⟩

/-- The mean over the cell of the squared difference. -/
noncomputable def misfit (S : Shape) (g : Geom) (bg : V3 ℝ → ℝ) (T : Target) (U : Mem) : ℝ :=
  1 / ((S.nx * S.ny * S.nz : ℕ) : ℝ) * cellSum S (fun q => (shown g U bg (pointPos S g.size q) - target S T q) ^ 2)

/-- The file is not empty and its data are all there. -/
structure GoodTarget (T : Target) : Prop where
  nx : 0 < T.nx
  ny : 0 < T.ny
  nz : 0 < T.nz
  len : T.nx * T.ny * T.nz ≤ T.eps.len

/-- `reset_epsilon` without averaging: the tensor of every stored pixel is that of the material at the grid point, and the dielectric constant
reported for it is `shown`, whenever the dielectric constants of the grids are positive. -/
def Pixels (S : Shape) (g : Geom) (bg : V3 ℝ → ℝ) (heev : Heev) (reset : Mem → Option (ℕ → HMat)) : Prop :=
  ∀ U, (∀ q ∈ visits S, ∀ e, g.eps U (pointPos S g.size q.pt) = some e → 0 < e) →
    ∃ epsInv, reset U = some epsInv ∧ ∀ q ∈ visits S, meanMedium heev (epsInv q.idx) = some (shown g U bg (pointPos S g.size q.pt))

/-- The structure has inversion symmetry, whatever the values of the grids. -/
def SymGeom (S : Shape) (g : Geom) (bg : V3 ℝ → ℝ) : Prop :=
  ∀ U q, q.1 < S.nx → q.2.1 < S.ny → q.2.2 < S.nz → g.eps U (pointPos S g.size (S.mirror q)) = g.eps U (pointPos S g.size q) ∧
    bg (pointPos S g.size (S.mirror q)) = bg (pointPos S g.size q)

end Spec

theorem mirror_in_cell {S : Shape} (hS : S.Ok) (q : ℕ × ℕ × ℕ) : (S.mirror q).1 < S.nx ∧ (S.mirror q).2.1 < S.ny ∧ (S.mirror q).2.2 < S.nz := by
  have := hS.nx; have := hS.ny; have := hS.nz
  unfold Shape.mirror
  refine ⟨?_, ?_, ?_⟩ <;> dsimp only <;> split_ifs <;> omega

theorem eps0_eq {S : Shape} {T : Target} (hT : GoodTarget T) {q : ℕ × ℕ × ℕ} (h1 : q.1 < S.nx) (h2 : q.2.1 < S.ny) (h3 : q.2.2 < S.nz) :
    eps0At S T q = some (target S T q) := by
  have aux : ∀ n i : ℕ, i < n → -1 ≤ ((i : ℝ) + 1 / 2) / n ∧ ((i : ℝ) + 1 / 2) / n ≤ 1 := by
    intro n i h
    have hn : (0 : ℝ) < n := by exact_mod_cast (by omega : 0 < n)
    have hi : (i : ℝ) + 1 ≤ n := by exact_mod_cast h
    have h0 : (0 : ℝ) ≤ i := by positivity
    refine ⟨le_trans (by norm_num) (by positivity : (0 : ℝ) ≤ ((i : ℝ) + 1 / 2) / n), ?_⟩
    rw [div_le_one hn]
    linarith
  exact C49_interp_partial _ T.eps T.nx T.ny T.nz 1 hT.nx hT.ny hT.nz one_pos (by rw [mul_one]; exact hT.len) (aux _ _ h1) (aux _ _ h2) (aux _ _ h3)

/-- What one pass adds to the value (without the gradient). -/
noncomputable def passVal (S : Shape) (g : Geom) (U : Mem) (bg : V3 ℝ → ℝ) (T : Target) (q : Visit) : ℝ :=
  (shown g U bg (pointPos S g.size q.pt) - target S T q.pt) ^ 2 +
    if S.doubled q.j then (shown g U bg (pointPos S g.size q.pt) - target S T (S.mirror q.pt)) ^ 2 else 0

/-- The loop without gradient. -/
theorem match_fold {S : Shape} (hS : S.Ok) {g : Geom} {U : Mem} {bg : V3 ℝ → ℝ} {heev : Heev} {T : Target} (hT : GoodTarget T) (grids : List MGrid)
    {epsInv : ℕ → HMat} (sc : ℝ) : ∀ l : List Visit, (∀ q ∈ l, q ∈ visits S) →
    (∀ q ∈ l, meanMedium heev (epsInv q.idx) = some (shown g U bg (pointPos S g.size q.pt))) → ∀ (a : ℝ) (w : Arr),
    l.foldlM (matchStep S g U grids heev T epsInv sc false) (a, w) = some (a + (l.map (passVal S g U bg T)).sum, w) := by
  intro l
  induction l with
  | nil => intro _ _ a w; simp
  | cons q l ih =>
    intro hl hm a w
    obtain ⟨h1, h2, h3⟩ := visit_in_cell hS (hl q (by simp))
    obtain ⟨m1, m2, m3⟩ := mirror_in_cell hS q.pt
    have hstep : matchStep S g U grids heev T epsInv sc false (a, w) q = some (a + passVal S g U bg T q, w) := by
      unfold matchStep matchMirror passVal
      rw [hm q (by simp), eps0_eq hT h1 h2 h3, eps0_eq hT m1 m2 m3]
      simp only [Option.bind_eq_bind, Option.bind_some, Bool.false_eq_true, if_false]
      cases S.doubled q.j <;> simp only [Bool.false_eq_true, if_false, if_true] <;> congr 2 <;> ring
    rw [List.foldlM_cons, hstep]
    simp only [Option.bind_eq_bind, Option.bind_some]
    rw [ih (fun q hq => hl q (by simp [hq])) (fun q hq => hm q (by simp [hq])), List.map_cons, List.sum_cons, add_assoc]

/-- The sum of the passes over the cell. -/
theorem pass_sum {S : Shape} (hS : S.Ok) (G Gm : Visit → ℝ) (F : ℕ × ℕ × ℕ → ℝ) (hG : ∀ q ∈ visits S, G q = F q.pt)
    (hm : S.inv = true → ∀ q ∈ visits S, Gm q = F (S.mirror q.pt)) :
    ((visits S).map fun q => G q + if S.doubled q.j then Gm q else 0).sum = cellSum S F := by
  rw [← loopSum_eq hS (visits S) (visits_nodup hS) (visits_mem hS) (fun v => v.j) (fun hi v hv => by rw [visits_j hi hv]) G Gm F hG hm]
  unfold loopSum
  dsimp only
  rw [foldl_sum (fun v : Visit => S.doubled v.j), zero_add]

theorem passVal_sum {S : Shape} (hS : S.Ok) {g : Geom} {bg : V3 ℝ → ℝ} (hsym : S.inv = true → SymGeom S g bg) (U : Mem) (T : Target) :
    ((visits S).map (passVal S g U bg T)).sum = cellSum S (fun q => (shown g U bg (pointPos S g.size q) - target S T q) ^ 2) := by
  unfold passVal
  refine pass_sum hS (fun q => (shown g U bg (pointPos S g.size q.pt) - target S T q.pt) ^ 2)
    (fun q => (shown g U bg (pointPos S g.size q.pt) - target S T (S.mirror q.pt)) ^ 2) _ (fun q _ => rfl) (fun hi q hq => ?_)
  obtain ⟨h1, h2, h3⟩ := visit_in_cell hS hq
  obtain ⟨s1, s2⟩ := hsym hi U q.pt h1 h2 h3
  unfold shown
  rw [s1, s2]

/-- C87, the value (both serial builds; partial: pixels without averaged tensors): the objective is the mean over the cell of the squared
difference between the dielectric constant and that of the file.  In the inversion-symmetric build the structure must have that
symmetry. -/
theorem C87_value_partial (S : Shape) (hS : S.Ok) (g : Geom) (bg : V3 ℝ → ℝ) (hsym : S.inv = true → SymGeom S g bg) (U0 : Mem) (grids : List MGrid)
    (ha : Allocated U0 grids) (heev : Heev) (T : Target) (hT : GoodTarget T) (reset : Mem → Option (ℕ → HMat)) (hreset : Pixels S g bg heev reset)
    (n : ℕ) (work u : Arr) (hu : offset grids ≤ u.len) :
    ∃ U, materialGridsSet u grids 0 U0 = some U ∧
      ((∀ q ∈ visits S, ∀ e, g.eps U (pointPos S g.size q.pt) = some e → 0 < e) →
        matchEps S g U0 grids heev T reset (S.nx * S.ny * S.nz) n work false u = some (misfit S g bg T U, work)) := by
  obtain ⟨U, h1, -⟩ := set_spec u grids 0 U0 (by omega) ha
  refine ⟨U, h1, fun hpos => ?_⟩
  obtain ⟨epsInv, hr, hm⟩ := hreset U hpos
  unfold matchEps
  dsimp only
  rw [h1]
  simp only [Option.bind_eq_bind, Option.bind_some, hr, Bool.false_eq_true, if_false]
  rw [match_fold hS hT grids _ (visits S) (fun q hq => hq) hm, passVal_sum hS hsym U T]
  simp only [Option.bind_some, misfit]
  congr 2
  ring

/-- What one pass adds to entry `i` of the gradient for grid `mg`. -/
noncomputable def passGrad (S : Shape) (g : Geom) (U : Mem) (bg : V3 ℝ → ℝ) (T : Target) (sc : ℝ) (mg : MGrid) (i : ℕ) (q : Visit) : ℝ :=
  2 * sc * (shown g U bg (pointPos S g.size q.pt) - target S T q.pt) * dEps g U mg i (pointPos S g.size q.pt) +
    if S.doubled q.j then 2 * sc * (shown g U bg (pointPos S g.size q.pt) - target S T q.pt) * dEps g U mg i (pointPos S g.size (S.mirror q.pt)) else 0

/-- The loop with gradient. -/
theorem match_fold_grad {S : Shape} (hS : S.Ok) {g : Geom} {U : Mem} {objs : List Mat} (hda : DistinctArrays (getMaterialGrids objs g.dflt))
    (hgood : ∀ q : ℕ × ℕ × ℕ, q.1 < S.nx → q.2.1 < S.ny → q.2.2 < S.nz → GoodPoint g U objs (pointPos S g.size q))
    {bg : V3 ℝ → ℝ} {heev : Heev} {T : Target} (hT : GoodTarget T) {epsInv : ℕ → HMat} (sc : ℝ) : ∀ l : List Visit, (∀ q ∈ l, q ∈ visits S) →
    (∀ q ∈ l, meanMedium heev (epsInv q.idx) = some (shown g U bg (pointPos S g.size q.pt))) → ∀ (a : ℝ) (w : Arr),
    offset (getMaterialGrids objs g.dflt) ≤ w.len →
    ∃ w', l.foldlM (matchStep S g U (getMaterialGrids objs g.dflt) heev T epsInv sc true) (a, w) = some (a + (l.map (passVal S g U bg T)).sum, w') ∧
      w'.len = w.len ∧ ∀ pre mg post, getMaterialGrids objs g.dflt = pre ++ mg :: post → ∀ i < mg.nx * mg.ny * mg.nz,
        w'.get (offset pre + i) = w.get (offset pre + i) + (l.map (passGrad S g U bg T sc mg i)).sum := by
  intro l
  induction l with
  | nil => intro _ _ a w _; exact ⟨w, by simp, rfl, fun pre mg post _ i _ => by simp⟩
  | cons q l ih =>
    intro hl hm a w hw
    obtain ⟨h1, h2, h3⟩ := visit_in_cell hS (hl q (by simp))
    obtain ⟨m1, m2, m3⟩ := mirror_in_cell hS q.pt
    have hstep : ∃ w', matchStep S g U (getMaterialGrids objs g.dflt) heev T epsInv sc true (a, w) q = some (a + passVal S g U bg T q, w') ∧
        w'.len = w.len ∧ ∀ pre mg post, getMaterialGrids objs g.dflt = pre ++ mg :: post → ∀ i < mg.nx * mg.ny * mg.nz,
        w'.get (offset pre + i) = w.get (offset pre + i) + passGrad S g U bg T sc mg i q := by
      unfold matchStep matchMirror passVal passGrad
      rw [hm q (by simp), eps0_eq hT h1 h2 h3, eps0_eq hT m1 m2 m3]
      simp only [Option.bind_eq_bind, Option.bind_some, if_true]
      generalize shown g U bg (pointPos S g.size q.pt) = e
      generalize target S T q.pt = e0
      obtain ⟨w1, x1, x2, x3⟩ := addPoint_deriv hda (hgood q.pt h1 h2 h3) w hw (2 * sc * (e - e0))
      obtain ⟨w2, y1, y2, y3⟩ := addPoint_deriv hda (hgood (S.mirror q.pt) m1 m2 m3) w1 (by rw [x2]; exact hw) (2 * sc * (e - e0))
      rw [x1]
      simp only [Option.bind_some]
      cases S.doubled q.j with
      | false =>
        simp only [Bool.false_eq_true, if_false, add_zero]
        exact ⟨w1, by congr 2; ring, x2, fun pre mg post he i hi => (x3 pre mg post he i hi).1⟩
      | true =>
        simp only [if_true]
        rw [y1]
        simp only [Option.bind_some]
        refine ⟨w2, by congr 2; ring, by rw [y2, x2], fun pre mg post he i hi => ?_⟩
        rw [(y3 pre mg post he i hi).1, (x3 pre mg post he i hi).1]
        ring
    obtain ⟨w1, x1, x2, x3⟩ := hstep
    obtain ⟨w', y1, y2, y3⟩ := ih (fun q hq => hl q (by simp [hq])) (fun q hq => hm q (by simp [hq])) (a + passVal S g U bg T q) w1
      (by rw [x2]; exact hw)
    refine ⟨w', ?_, by rw [y2, x2], fun pre mg post he i hi => ?_⟩
    · rw [List.foldlM_cons, x1]
      simp only [Option.bind_eq_bind, Option.bind_some]
      rw [y1, List.map_cons, List.sum_cons, add_assoc]
    · rw [y3 pre mg post he i hi, x3 pre mg post he i hi, List.map_cons, List.sum_cons, add_assoc]

theorem same_pos {gs pre post pre' post' : List MGrid} {mg m : MGrid} (hd : DistinctArrays gs) (he : gs = pre ++ mg :: post)
    (he' : gs = pre' ++ m :: post') (h : m.arr = mg.arr) : pre = pre' ∧ m = mg := by
  unfold DistinctArrays at hd
  have hd' := hd
  rw [he, List.pairwise_append, List.pairwise_cons] at hd
  rw [he', List.pairwise_append, List.pairwise_cons] at hd'
  rw [he] at he'
  rcases List.append_eq_append_iff.1 he' with ⟨a, h1, h2⟩ | ⟨a, h1, h2⟩
  · cases a with
    | nil =>
      simp only [List.nil_append, List.cons.injEq] at h2
      exact ⟨by simp [h1], h2.1.symm⟩
    | cons x a =>
      simp only [List.cons_append, List.cons.injEq] at h2
      exact absurd h.symm (hd.2.1.1 m (by rw [h2.2]; simp))
  · cases a with
    | nil =>
      simp only [List.nil_append, List.cons.injEq] at h2
      exact ⟨by simp [h1], h2.1⟩
    | cons x a =>
      simp only [List.cons_append, List.cons.injEq] at h2
      exact absurd h (hd'.2.1.1 mg (by rw [h2.2]; simp))

/-- Setting the degrees of freedom with one changed. -/
theorem set_setEntry (u : Arr) (gs : List MGrid) (U0 : Mem) (hl : offset gs ≤ u.len) (ha : Allocated U0 gs) (hd : DistinctArrays gs)
    {U : Mem} (hU : materialGridsSet u gs 0 U0 = some U) {pre : List MGrid} {mg : MGrid} {post : List MGrid} (he : gs = pre ++ mg :: post)
    {i : ℕ} (hi : i < mg.nx * mg.ny * mg.nz) (t : ℝ) :
    materialGridsSet (setEntry u (offset pre + i) t) gs 0 U0 = some (setMem U mg.arr i t) := by
  obtain ⟨U1, a1, a2, a3, a4⟩ := set_spec u gs 0 U0 (by omega) ha
  obtain ⟨U2, b1, b2, b3, b4⟩ := set_spec (setEntry u (offset pre + i) t) gs 0 U0 (by simpa [setEntry] using hl) ha
  obtain rfl : U1 = U := by rw [a1] at hU; exact Option.some.inj hU
  rw [b1]
  congr 1
  funext c
  by_cases hc : ∀ m ∈ gs, m.arr ≠ c
  · rw [b3 c hc]
    have : c ≠ mg.arr := fun h => hc mg (by rw [he]; simp) h.symm
    rw [setMem, Function.update_of_ne this, a3 c hc]
  · push Not at hc
    obtain ⟨m, hm, rfl⟩ := hc
    obtain ⟨pre', post', he'⟩ := List.append_of_mem hm
    obtain ⟨x1, x2⟩ := a4 hd pre' m post' he'
    obtain ⟨y1, y2⟩ := b4 hd pre' m post' he'
    have hlen : (U2 m.arr).len = (setMem U1 mg.arr i t m.arr).len := by
      rw [b2]
      unfold setMem
      by_cases h : m.arr = mg.arr
      · rw [h, Function.update_self]
        simp [setEntry, a2]
      · rw [Function.update_of_ne h, a2]
    have hget : (U2 m.arr).get = (setMem U1 mg.arr i t m.arr).get := by
      funext k
      by_cases hk : k < m.ntot
      · rw [y1 k hk, Nat.zero_add]
        by_cases hp : m.arr = mg.arr
        · obtain ⟨rfl, rfl⟩ := same_pos hd he he' hp
          unfold setMem setEntry
          rw [Function.update_self]
          simp only
          by_cases hki : k = i
          · rw [hki, Function.update_self, Function.update_self]
          · rw [Function.update_of_ne (by omega), Function.update_of_ne hki, x1 k hk, Nat.zero_add]
        · unfold setMem
          rw [Function.update_of_ne hp, x1 k hk, Nat.zero_add]
          unfold setEntry
          simp only
          rw [Function.update_of_ne]
          intro h
          have := (offset_disjoint he he' hi hk h.symm).1
          subst this
          rw [he] at he'
          have := List.append_cancel_left he'
          simp only [List.cons.injEq] at this
          exact hp (by rw [this.1])
      · rw [y2 k (by omega)]
        by_cases hp : m.arr = mg.arr
        · obtain ⟨rfl, rfl⟩ := same_pos hd he he' hp
          unfold setMem setEntry
          rw [Function.update_self]
          simp only
          have : k ≠ i := by unfold MGrid.ntot at hk; omega
          rw [Function.update_of_ne this, x2 k (by omega)]
        · unfold setMem
          rw [Function.update_of_ne hp, x2 k (by omega)]
    cases h1 : U2 m.arr
    cases h2 : setMem U1 mg.arr i t m.arr
    rw [h1, h2] at hlen hget
    simp only at hlen hget
    rw [hlen, hget]

theorem deriv_list_sum {ι : Type} {f : ℝ → ι → ℝ} {t0 : ℝ} (l : List ι) (f' : ι → ℝ)
    (h : ∀ q ∈ l, HasDerivAt (fun t => f t q) (f' q) t0) : HasDerivAt (fun t => (l.map (f t)).sum) (l.map f').sum t0 := by
  induction l with
  | nil => simpa using hasDerivAt_const t0 (0 : ℝ)
  | cons a l ih =>
    simp only [List.map_cons, List.sum_cons]
    exact (h a (by simp)).add (ih (fun q hq => h q (by simp [hq])))

/-- C87, the gradient (both serial builds; partial: pixels without averaged tensors, the conditions of C50 at every grid point; in the
inversion-symmetric build the structure *and the file* must have that symmetry, see `C87_half_refuted`).  The array is the gradient of the
objective: entry `k` is the derivative of the value returned when degree of freedom `k` changes. -/
theorem C87_gradient_partial (S : Shape) (hS : S.Ok) (g : Geom) (bg : V3 ℝ → ℝ) (objs : List Mat) (hsym : S.inv = true → SymGeom S g bg) (U0 : Mem)
    (ha : Allocated U0 (getMaterialGrids objs g.dflt)) (hda : DistinctArrays (getMaterialGrids objs g.dflt)) (heev : Heev) (T : Target)
    (hT : GoodTarget T)
    (hTsym : S.inv = true → ∀ q : ℕ × ℕ × ℕ, q.1 < S.nx → q.2.1 < S.ny → q.2.2 < S.nz → target S T (S.mirror q) = target S T q)
    (reset : Mem → Option (ℕ → HMat)) (hreset : Pixels S g bg heev reset)
    (n : ℕ) (hn : n = offset (getMaterialGrids objs g.dflt)) (work u : Arr) (hu : n ≤ u.len)
    (hgood : ∀ U, materialGridsSet u (getMaterialGrids objs g.dflt) 0 U0 = some U →
      ∀ q : ℕ × ℕ × ℕ, q.1 < S.nx → q.2.1 < S.ny → q.2.2 < S.nz → GoodPoint g U objs (pointPos S g.size q) ∧
        ∀ e, g.eps U (pointPos S g.size q) = some e → 0 < e) :
    ∃ val grad, matchEps S g U0 (getMaterialGrids objs g.dflt) heev T reset (S.nx * S.ny * S.nz) n work true u = some (val, grad) ∧
      grad.len = n ∧ ∀ k < n, ∃ F : ℝ → ℝ, F (u.get k) = val ∧
        (∀ᶠ t in 𝓝 (u.get k), ∃ w, matchEps S g U0 (getMaterialGrids objs g.dflt) heev T reset (S.nx * S.ny * S.nz) n work false
          (setEntry u k t) = some (F t, w)) ∧
        HasDerivAt F (grad.get k) (u.get k) := by
  have hu' : offset (getMaterialGrids objs g.dflt) ≤ u.len := by rw [← hn]; exact hu
  obtain ⟨U, h1, -, -, hU4⟩ := set_spec u (getMaterialGrids objs g.dflt) 0 U0 (by omega) ha
  have hg := hgood U h1
  have hvis : ∀ q ∈ visits S, q.pt.1 < S.nx ∧ q.pt.2.1 < S.ny ∧ q.pt.2.2 < S.nz := fun q hq => visit_in_cell hS hq
  have hpos : ∀ q ∈ visits S, ∀ e, g.eps U (pointPos S g.size q.pt) = some e → 0 < e :=
    fun q hq => (hg q.pt (hvis q hq).1 (hvis q hq).2.1 (hvis q hq).2.2).2
  obtain ⟨epsInv, hr, hm⟩ := hreset U hpos
  set sc : ℝ := 1 / ((S.nx * S.ny * S.nz : ℕ) : ℝ) with hsc
  obtain ⟨w', f1, f2, f3⟩ := match_fold_grad hS hda (fun q a b c => (hg q a b c).1) hT sc (visits S) (fun q hq => hq) hm 0 ⟨n, fun _ => 0⟩
    (by rw [← hn])
  rw [passVal_sum hS hsym U T, zero_add] at f1
  refine ⟨misfit S g bg T U, w', ?_, f2, fun k hk => ?_⟩
  · unfold matchEps
    dsimp only
    rw [h1]
    simp only [Option.bind_eq_bind, Option.bind_some, hr, if_true]
    rw [f1]
    simp only [Option.bind_some, misfit]
    congr 2
    ring
  obtain ⟨pre, mg, post, i, he, hi, rfl⟩ := exists_pos _ k (by rw [← hn]; exact hk)
  have huk : u.get (offset pre + i) = (U mg.arr).get i := by
    rw [(hU4 hda pre mg post he).1 i hi, Nat.zero_add]
  rw [huk]
  -- how the dielectric constant of a point depends on the value
  have hsh : ∀ q : ℕ × ℕ × ℕ, q.1 < S.nx → q.2.1 < S.ny → q.2.2 < S.nz →
      HasDerivAt (fun t => shown g (setMem U mg.arr i t) bg (pointPos S g.size q)) (dEps g U mg i (pointPos S g.size q)) ((U mg.arr).get i) ∧
      ∀ᶠ t in 𝓝 ((U mg.arr).get i), ∀ e, g.eps (setMem U mg.arr i t) (pointPos S g.size q) = some e → 0 < e := by
    intro q a b c
    obtain ⟨gp, gpos⟩ := hg q a b c
    obtain ⟨_, -, -, hw⟩ := addPoint_deriv hda gp ⟨n, fun _ => 0⟩ (by rw [← hn]) 0
    obtain ⟨-, hd, halt⟩ := hw pre mg post he i hi
    unfold shown
    rcases halt with hnone | ⟨f, hf⟩
    · simp only [hnone, Option.getD_none] at hd ⊢
      have e0 : dEps g U mg i (pointPos S g.size q) = 0 := hd.unique (hasDerivAt_const _ _)
      rw [e0]
      exact ⟨hasDerivAt_const _ _, Filter.Eventually.of_forall (fun t e h => by cases h)⟩
    · simp only [hf, Option.getD_some] at hd ⊢
      refine ⟨hd, ?_⟩
      have hp : 0 < f ((U mg.arr).get i) := by
        apply gpos
        have := hf ((U mg.arr).get i)
        rwa [setMem_self] at this
      filter_upwards [hd.continuousAt.eventually (lt_mem_nhds hp)] with t ht e h
      rw [← Option.some.inj h]
      exact ht
  have hev : ∀ᶠ t in 𝓝 ((U mg.arr).get i), ∀ q ∈ visits S, ∀ e, g.eps (setMem U mg.arr i t) (pointPos S g.size q.pt) = some e → 0 < e := by
    have hfin : {q | q ∈ visits S}.Finite := List.finite_toSet _
    have := (Filter.eventually_all_finite hfin (l := 𝓝 ((U mg.arr).get i))
      (p := fun q t => ∀ e, g.eps (setMem U mg.arr i t) (pointPos S g.size q.pt) = some e → 0 < e)).2
      (fun q hq => (hsh q.pt (hvis q hq).1 (hvis q hq).2.1 (hvis q hq).2.2).2)
    exact this
  refine ⟨fun t => misfit S g bg T (setMem U mg.arr i t), by simp only [setMem_self], ?_, ?_⟩
  · filter_upwards [hev] with t ht
    obtain ⟨U', a1, a2⟩ := C87_value_partial S hS g bg hsym U0 (getMaterialGrids objs g.dflt) ha heev T hT reset hreset n work
      (setEntry u (offset pre + i) t) (by simpa [setEntry] using hu')
    rw [set_setEntry u _ U0 hu' ha hda h1 he hi t] at a1
    obtain rfl := Option.some.inj a1
    exact ⟨work, a2 ht⟩
  · have hval : w'.get (offset pre + i) = sc * cellSum S (fun q => 2 * (shown g U bg (pointPos S g.size q) - target S T q) *
        dEps g U mg i (pointPos S g.size q)) := by
      rw [f3 pre mg post he i hi]
      unfold passGrad
      rw [pass_sum hS (fun q => 2 * sc * (shown g U bg (pointPos S g.size q.pt) - target S T q.pt) * dEps g U mg i (pointPos S g.size q.pt))
        (fun q => 2 * sc * (shown g U bg (pointPos S g.size q.pt) - target S T q.pt) * dEps g U mg i (pointPos S g.size (S.mirror q.pt)))
        (fun q => 2 * sc * (shown g U bg (pointPos S g.size q) - target S T q) * dEps g U mg i (pointPos S g.size q)) (fun q _ => rfl)
        (fun hinv q hq => by
          obtain ⟨a, b, c⟩ := hvis q hq
          obtain ⟨s1, s2⟩ := hsym hinv U q.pt a b c
          have e1 : shown g U bg (pointPos S g.size (S.mirror q.pt)) = shown g U bg (pointPos S g.size q.pt) := by
            unfold shown; rw [s1, s2]
          rw [e1, hTsym hinv q.pt a b c])]
      simp only [zero_add]
      unfold cellSum
      rw [← List.sum_map_mul_left]
      congr 1
      apply List.map_congr_left
      intro q _
      ring
    rw [hval]
    unfold misfit
    refine HasDerivAt.const_mul _ ?_
    unfold cellSum
    refine deriv_list_sum _ _ (fun q hq => ?_)
    rw [mem_loop3] at hq
    have := ((hsh q hq.1 hq.2.1 hq.2.2).1.sub_const (target S T q)).pow 2
    simp only [setMem_self, Nat.cast_ofNat, Nat.add_one_sub_one, pow_one] at this
    exact this

end Mpb.MatGrid

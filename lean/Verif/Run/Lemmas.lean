import Verif.Run.Spec
import Verif.Scheme.Props

namespace Mpb.Run

open Mpb.Scheme Spec

variable {K E F X V : Type}

/-- The variables of `run-parity` are the same. -/
structure Keeps (s s' : St K E F X) : Prop where
  freqs : s'.freqs = s.freqs
  index : s'.index = s.index
  currentK : s'.currentK = s.currentK
  allFreqs : s'.allFreqs = s.allFreqs
  ranges : s'.ranges = s.ranges
  gaps : s'.gaps = s.gaps

theorem Keeps.refl (s : St K E F X) : Keeps s s := ⟨rfl, rfl, rfl, rfl, rfl, rfl⟩

theorem Keeps.trans {s t u : St K E F X} (h : Keeps s t) (h' : Keeps t u) : Keeps s u :=
  ⟨h'.1.trans h.1, h'.2.trans h.2, h'.3.trans h.3, h'.4.trans h.4, h'.5.trans h.5, h'.6.trans h.6⟩

/-- The solution a state is at. -/
def solOf (v : E → V) (s : St K E F X) : Sol K V F := ⟨s.currentK, s.index, s.freqs, v s.eig⟩

/-- `f` keeps the variables and what is seen of the eigenvectors, and makes the calls `W`. -/
structure Logs (v : E → V) (f : St K E F X → St K E F X) (W : Sol K V F → List (Ev K V F)) (s : St K E F X) : Prop where
  keeps : Keeps s (f s)
  eig : v (f s).eig = v s.eig
  log : (f s).log.map (view v) = s.log.map (view v) ++ W (solOf v s)

theorem Logs.sol {v : E → V} {f : St K E F X → St K E F X} {W} {s : St K E F X} (h : Logs v f W s) : solOf v (f s) = solOf v s := by
  unfold solOf
  rw [h.keeps.currentK, h.keeps.index, h.keeps.freqs, h.eig]

theorem logs_fold {v : E → V} {A : Type} (f : A → St K E F X → St K E F X) (W : A → Sol K V F → List (Ev K V F)) (l : List A)
    (h : ∀ a ∈ l, ∀ s, Logs v (f a) (W a) s) (s : St K E F X) :
    Logs v (fun s => l.foldl (fun s a => f a s) s) (fun x => l.flatMap fun a => W a x) s := by
  induction l generalizing s with
  | nil => exact ⟨Keeps.refl s, rfl, by simp⟩
  | cons a l ih =>
    have h1 := h a (by simp) s
    have h2 := ih (fun a ha => h a (by simp [ha])) (f a s)
    refine ⟨h1.keeps.trans h2.keeps, h2.eig.trans h1.eig, ?_⟩
    have e := h2.log
    rw [h1.sol, h1.log] at e
    simpa using e

theorem logs_id {v : E → V} (s : St K E F X) : Logs v (fun s => s) (fun _ => []) s := ⟨Keeps.refl s, rfl, by simp⟩

theorem logs_prim {v : E → V} {p : Prim K E F X} (hp : Leaves v p) (b : Option ℕ) (s : St K E F X) :
    Logs v (p.call b) (fun x => [.call p.id b x.k x.index x.freqs x.eig]) s :=
  ⟨⟨rfl, rfl, rfl, rfl, rfl, rfl⟩, hp b s, by simp [Prim.call, view, solOf]⟩

/-- One user's function at one k-point. -/
theorem logs_entry (env : Env K E F X) {v : E → V} {p : Prim K E F X} (hp : Leaves v p) (s : St K E F X) :
    Logs v (fun s => callEntry env s (.fn p.fn)) (calls env.numBands [p]) s := by
  unfold Prim.fn calls
  cases hb : p.thunk with
  | true =>
    simpa [callEntry, hb] using logs_prim hp none s
  | false =>
    have := logs_fold (fun b => p.call (some (b + 1))) (fun b x => [.call p.id (some (b + 1)) x.k x.index x.freqs x.eig])
      (List.range env.numBands) (fun b _ s => logs_prim hp _ s) s
    have e : ∀ x : Sol K V F, (List.range env.numBands).flatMap (fun b => [Ev.call p.id (some (b + 1)) x.k x.index x.freqs x.eig]) =
        (List.range env.numBands).map fun b => .call p.id (some (b + 1)) x.k x.index x.freqs x.eig := by
      intro x; rw [List.map_eq_flatMap]
    simpa [callEntry, hb, e] using this

theorem logs_entries (env : Env K E F X) {v : E → V} {ps : List (Prim K E F X)} (hp : ∀ p ∈ ps, Leaves v p) (s : St K E F X) :
    Logs v (fun s => (ps.map fun p => Entry.fn p.fn).foldl (callEntry env) s) (calls env.numBands ps) s := by
  have := logs_fold (fun p s => callEntry env s (.fn p.fn)) (fun p => calls env.numBands [p]) ps (fun p h s => logs_entry env (hp p h) s) s
  have e : calls (V := V) env.numBands ps = fun x => ps.flatMap fun p => calls env.numBands [p] x := by
    funext x; simp [calls]
  rw [e]
  simpa [List.foldl_map] using this

variable [Field F] [LinearOrder F]

theorem fold_points (env : Env K E F X) (v : E → V) {fs : List (Entry K E F X)} {W : Sol K V F → List (Ev K V F)}
    (hW : ∀ s, Logs v (fun s => fs.foldl (callEntry env) s) W s) (ks : List K) (s : St K E F X) :
    ∃ xs : List (Sol K V F), xs.map (·.k) = ks ∧ (∀ (j : ℕ) x, xs[j]? = some x → x.index = s.index + j + 1) ∧
      (∀ x ∈ xs, ∃ e y, v (env.solver env.numBands x.k e y).1 = x.eig ∧ (env.solver env.numBands x.k e y).2.1 = x.freqs) ∧
      (ks.foldl (kStep env fs) s).log.map (view v) = s.log.map (view v) ++
        (xs.flatMap fun x => .solve x.k x.index x.freqs x.eig :: W x) ∧
      (ks.foldl (kStep env fs) s).allFreqs = (xs.map (·.freqs)).reverse ++ s.allFreqs ∧
      (ks.foldl (kStep env fs) s).ranges =
        (xs.map fun x => (x.freqs, x.k)).foldl (fun brd row => updateBandRangeData env.inf brd row.1 row.2) s.ranges := by
  induction ks generalizing s with
  | nil => exact ⟨[], rfl, by simp, by simp, by simp, by simp, rfl⟩
  | cons k ks ih =>
    have h := hW (solveStep env k s)
    obtain ⟨xs, h1, h2, h3, h4, h5, h6⟩ := ih (kStep env fs s k)
    have hi : (kStep env fs s k).index = s.index + 1 := h.keeps.index
    have hx : solOf v (solveStep env k s) = ⟨k, s.index + 1, (env.solver env.numBands k s.eig s.rest).2.1,
      v (env.solver env.numBands k s.eig s.rest).1⟩ := rfl
    refine ⟨solOf v (solveStep env k s) :: xs, ?_, ?_, ?_, ?_, ?_, ?_⟩
    · simp [h1, hx]
    · intro j x hj
      cases j with
      | zero =>
        obtain rfl := Option.some.inj hj
        rw [hx]; simp
      | succ j =>
        have := h2 j x (by simpa using hj)
        rw [this, hi]; push_cast; ring
    · intro x hx'
      rcases List.mem_cons.1 hx' with rfl | hx'
      · exact ⟨s.eig, s.rest, rfl, rfl⟩
      · exact h3 x hx'
    · rw [List.foldl_cons, h4]
      have e : (kStep env fs s k).log.map (view v) = _ := h.log
      rw [e, hx]
      have e2 : (solveStep env k s).log.map (view v) = s.log.map (view v) ++ [.solve k (s.index + 1)
        (env.solver env.numBands k s.eig s.rest).2.1 (v (env.solver env.numBands k s.eig s.rest).1)] := by
        simp [solveStep, solveKpoint, view]
      rw [e2]
      simp
    · rw [List.foldl_cons, h5]
      have e : (kStep env fs s k).allFreqs = _ := h.keeps.allFreqs
      rw [e]
      simp [solveStep, solveKpoint, solOf]
    · rw [List.foldl_cons, h6]
      have e : (kStep env fs s k).ranges = _ := h.keeps.ranges
      rw [e]
      simp [solveStep, solveKpoint, solOf]

theorem runInit_log (env : Env K E F X) (p : ℤ) (reset : Reset) (s : St K E F X) :
    (runInit env p reset s).log = s.log ∧ (runInit env p reset s).allFreqs = [] ∧ (runInit env p reset s).ranges = [] := by
  unfold runInit
  cases reset <;> exact ⟨rfl, rfl, rfl⟩

theorem output_log (env : Env K E F X) (v : E → V) (s : St K E F X) :
    (outputMaterials env s).log.map (view v) = s.log.map (view v) ++ .epsilon :: (if env.usingMu then [.mu] else []) ∧
      (outputMaterials env s).allFreqs = s.allFreqs ∧ (outputMaterials env s).ranges = s.ranges ∧
      (outputMaterials env s).index = s.index := by
  unfold outputMaterials
  cases env.usingMu <;> simp [view]

/-- The run. -/
theorem run_ran (env : Env K E F X) (v : E → V) {fs : List (Entry K E F X)} {W : Sol K V F → List (Ev K V F)}
    (hW : ∀ s, Logs v (fun s => (entries env fs).foldl (callEntry env) s) W s) (hn : 0 < env.numBands) (p : ℤ) (reset : Reset)
    (s : St K E F X) : ∃ xs, Ran env v W s (runParity env p reset fs s) xs := by
  obtain ⟨a1, a2, a3⟩ := runInit_log env p reset s
  set s0 : St K E F X := { runInit env p reset s with index := (listSplit env.kPoints env.splitNum env.splitIndex).1 } with hs0
  set s1 := if (listSplit env.kPoints env.splitNum env.splitIndex).1 = 0 then outputMaterials env s0 else s0 with hs1
  have b : s1.log.map (view v) = s.log.map (view v) ++
      (if (listSplit env.kPoints env.splitNum env.splitIndex).1 = 0 then .epsilon :: (if env.usingMu then [.mu] else []) else []) ∧
      s1.allFreqs = [] ∧ s1.ranges = [] ∧ s1.index = (listSplit env.kPoints env.splitNum env.splitIndex).1 := by
    obtain ⟨o1, o2, o3, o4⟩ := output_log env v s0
    have e0 : s0.log = s.log := a1
    by_cases h : (listSplit env.kPoints env.splitNum env.splitIndex).1 = 0
    · rw [hs1, if_pos h, if_pos h]
      exact ⟨by rw [o1, e0], o2.trans a2, o3.trans a3, o4⟩
    · rw [hs1, if_neg h, if_neg h]
      exact ⟨by rw [e0, List.append_nil], a2, a3, rfl⟩
  obtain ⟨xs, h1, h2, h3, h4, h5, h6⟩ := fold_points env v hW (listSplit env.kPoints env.splitNum env.splitIndex).2 s1
  have hlen : xs.length = (listSplit env.kPoints env.splitNum env.splitIndex).2.length := by rw [← h1, List.length_map]
  have hrun : runParity env p reset fs s =
      { List.foldl (kStep env (entries env fs)) s1 (listSplit env.kPoints env.splitNum env.splitIndex).2 with
        gaps := if 1 < (listSplit env.kPoints env.splitNum env.splitIndex).2.length then
          outputGaps (List.foldl (kStep env (entries env fs)) s1 (listSplit env.kPoints env.splitNum env.splitIndex).2).ranges else []
        allFreqs := (List.foldl (kStep env (entries env fs)) s1
          (listSplit env.kPoints env.splitNum env.splitIndex).2).allFreqs.reverse } := by
    unfold runParity
    simp only [if_pos hn]
    rfl
  refine ⟨xs, h1, ?_, h3, ?_, ?_, ?_, ?_⟩
  · intro j x hj
    rw [h2 j x hj, b.2.2.2]
  · rw [hrun]
    dsimp only
    rw [h4, b.1]
  · rw [hrun]
    dsimp only
    rw [h5, b.2.1]
    simp
  · rw [hrun]
    dsimp only
    rw [h6, b.2.2.1]
    rfl
  · rw [hrun]
    dsimp only
    rw [← hlen]
    rfl

theorem run_none (env : Env K E F X) (v : E → V) (fs : List (Entry K E F X)) (hn : env.numBands = 0) (p : ℤ) (reset : Reset)
    (s : St K E F X) : (runParity env p reset fs s).log.map (view v) = s.log.map (view v) ++
      (if (listSplit env.kPoints env.splitNum env.splitIndex).1 = 0 then .epsilon :: (if env.usingMu then [.mu] else []) else []) ∧
      (runParity env p reset fs s).allFreqs = [] ∧ (runParity env p reset fs s).ranges = [] := by
  obtain ⟨a1, a2, a3⟩ := runInit_log env p reset s
  have o := output_log env v { runInit env p reset s with index := (listSplit env.kPoints env.splitNum env.splitIndex).1 }
  unfold runParity
  simp only [hn, lt_irrefl, if_false]
  by_cases h : (listSplit env.kPoints env.splitNum env.splitIndex).1 = 0
  · rw [if_pos h, if_pos h]
    obtain ⟨o1, o2, o3, -⟩ := o
    refine ⟨?_, by rw [o2, a2]; rfl, by rw [o3, a3]⟩
    rw [o1, a1]
  · rw [if_neg h, if_neg h]
    exact ⟨by simp [a1], by simp [a2], a3⟩

end Mpb.Run

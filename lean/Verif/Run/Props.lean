import Verif.Run.Lemmas
import Mathlib.Data.List.Perm.Basic

/-!
# C92: what a run does
-/

namespace Mpb.Run

open Mpb.Scheme Spec

variable {K E F X V : Type} [Field F] [LinearOrder F]

theorem entries_of_not {env : Env K E F X} (h : env.always = false) (fs : List (Entry K E F X)) : entries env fs = fs := by
  simp [entries, h]

/-- **C92.**  For all k-points, numbers of bands, jobs, solvers and user's band functions that leave the eigenvectors alone, if
`randomize-fields?` is not set: the run solves each k-point of its share once, in order; after each it calls every band function for every
band (a function without argument once), and each call finds in `current-k`, `(get-kpoint-index)`, `freqs` and the array of eigenvectors
what was just computed; `all-freqs`, `band-range-data` and `gap-list` are those of the k-points solved.  Missing: `randomize-fields?`, see
`C92_randomize_refuted`. -/
theorem C92_run_partial (env : Env K E F X) (ha : env.always = false) (hn : 0 < env.numBands) (ps : List (Prim K E F X))
    (hp : ∀ p ∈ ps, Leaves id p) (p : ℤ) (reset : Reset) (s : St K E F X) :
    ∃ xs, Ran env id (calls env.numBands ps) s (runParity env p reset (ps.map fun p => .fn p.fn) s) xs :=
  run_ran env id (fun s => by rw [entries_of_not ha]; exact logs_entries env hp s) hn p reset s

/-- **C92, any functions.**  The same for all band functions, whatever they do to the fields, and with or without `randomize-fields?`, except for
the eigenvectors the calls find. -/
theorem C92_any (env : Env K E F X) (hn : 0 < env.numBands) (ps : List (Prim K E F X)) (p : ℤ) (reset : Reset) (s : St K E F X) :
    ∃ xs, Ran env (fun _ => ()) (calls env.numBands ps) s (runParity env p reset (ps.map fun p => .fn p.fn) s) xs := by
  refine run_ran env _ (fun s => ?_) hn p reset s
  have hp : ∀ p ∈ ps, Leaves (fun _ : E => ()) p := fun _ _ _ _ => rfl
  unfold entries
  split_ifs
  · have h := logs_entries env hp (randomizeFields env s)
    exact ⟨Keeps.trans (t := randomizeFields env s) ⟨rfl, rfl, rfl, rfl, rfl, rfl⟩ h.keeps, rfl, h.log⟩
  · exact logs_entries env hp s

/-- **C92, no bands.**  With `num-bands` zero only the material functions are written. -/
theorem C92_no_bands (env : Env K E F X) (fs : List (Entry K E F X)) (hn : env.numBands = 0) (p : ℤ) (reset : Reset)
    (s : St K E F X) : (runParity env p reset fs s).log.map (view id) = s.log.map (view id) ++
      (if (listSplit env.kPoints env.splitNum env.splitIndex).1 = 0 then .epsilon :: (if env.usingMu then [.mu] else []) else []) ∧
      (runParity env p reset fs s).allFreqs = [] :=
  let h := run_none env id fs hn p reset s
  ⟨h.1, h.2.1⟩

/-- **C92, one job.**  Without `k-split-num` the share is the whole list. -/
theorem C92_whole (L : List K) : listSplit L 1 0 = (0, L) := by
  have := listSplit_eq L 1 0 (by omega)
  simpa using this

/-- **C92, `reset-fields`.**  The first k-point is solved starting from the eigenvectors there were (as `init-params` leaves them when asked to keep them)
if `reset-fields` is false, from reset ones if it is true, and from those in the file (read after a reset) if it is a name. -/
theorem C92_reset (env : Env K E F X) (hn : 0 < env.numBands) (ps : List (Prim K E F X)) (p : ℤ) (reset : Reset) (s : St K E F X) (k : K) (ks : List K)
    (hk : (listSplit env.kPoints env.splitNum env.splitIndex).2 = k :: ks) :
    ∃ y pre post, (runParity env p reset (ps.map fun p => .fn p.fn) s).log = s.log ++ pre ++
        .solve k ((listSplit env.kPoints env.splitNum env.splitIndex).1 + 1) (env.solver env.numBands k (start env p reset s) y).2.1
          (env.solver env.numBands k (start env p reset s) y).1 :: post ∧ pre.all isMaterial := by
  have mono : ∀ (fs : List (Entry K E F X)), (∀ e ∈ fs, ∀ s, ∃ l, (callEntry env s e).log = s.log ++ l) →
      ∀ s : St K E F X, ∃ l, (fs.foldl (callEntry env) s).log = s.log ++ l := by
    intro fs
    induction fs with
    | nil => exact fun _ s => ⟨[], by simp⟩
    | cons e fs ih =>
      intro h s
      obtain ⟨l, hl⟩ := h e (by simp) s
      obtain ⟨l', hl'⟩ := ih (fun e he => h e (by simp [he])) (callEntry env s e)
      exact ⟨l ++ l', by rw [List.foldl_cons, hl', hl, List.append_assoc]⟩
  have hband : ∀ (q : Prim K E F X) (L : List ℕ) (s : St K E F X), ∃ l, (L.foldl (fun s b => q.call (some (b + 1)) s) s).log = s.log ++ l := by
    intro q L
    induction L with
    | nil => exact fun s => ⟨[], by simp⟩
    | cons b L ih =>
      intro s
      obtain ⟨l, hl⟩ := ih (q.call (some (b + 1)) s)
      exact ⟨_, (by rw [List.foldl_cons, hl]; exact List.append_assoc _ _ _)⟩
  have hent : ∀ e ∈ entries env (ps.map fun p => .fn p.fn), ∀ s, ∃ l, (callEntry env s e).log = s.log ++ l := by
    have base : ∀ q : Prim K E F X, ∀ s, ∃ l, (callEntry env s (.fn q.fn)).log = s.log ++ l := by
      intro q s
      unfold Prim.fn
      split_ifs
      · exact ⟨_, rfl⟩
      · exact hband q _ s
    intro e he s
    have : e = .randomize ∨ ∃ q : Prim K E F X, e = .fn q.fn := by
      unfold entries at he
      split_ifs at he
      · rcases List.mem_cons.1 he with rfl | he
        · exact .inl rfl
        · obtain ⟨q, -, rfl⟩ := List.mem_map.1 he
          exact .inr ⟨q, rfl⟩
      · obtain ⟨q, -, rfl⟩ := List.mem_map.1 he
        exact .inr ⟨q, rfl⟩
    rcases this with rfl | ⟨q, rfl⟩
    · exact ⟨[], by simp [callEntry, randomizeFields]⟩
    · exact base q s
  have hks : ∀ (L : List K) (s : St K E F X), ∃ l, (L.foldl (kStep env (entries env (ps.map fun p => .fn p.fn))) s).log = s.log ++ l := by
    intro L
    induction L with
    | nil => exact fun s => ⟨[], by simp⟩
    | cons k L ih =>
      intro s
      obtain ⟨l, hl⟩ := mono _ hent (solveStep env k s)
      obtain ⟨l', hl'⟩ := ih (kStep env (entries env (ps.map fun p => .fn p.fn)) s k)
      obtain ⟨l0, hl0⟩ : ∃ l0, (solveStep env k s).log = s.log ++ l0 := ⟨_, rfl⟩
      refine ⟨l0 ++ l ++ l', ?_⟩
      rw [List.foldl_cons, hl']
      unfold kStep
      rw [hl, hl0]
      simp only [List.append_assoc]
  set t : St K E F X := { runInit env p reset s with index := (listSplit env.kPoints env.splitNum env.splitIndex).1 } with ht
  set u : St K E F X := if (listSplit env.kPoints env.splitNum env.splitIndex).1 = 0 then outputMaterials env t else t with hu
  have hlog0 : t.log = s.log := by
    rw [ht]
    unfold runInit
    cases reset <;> rfl
  have heig : u.eig = start env p reset s := by
    have h1 : t.eig = start env p reset s := by
      rw [ht]
      unfold runInit start
      cases reset <;> rfl
    rw [hu]
    split_ifs
    · rw [← h1]; unfold outputMaterials; dsimp only; split_ifs <;> rfl
    · exact h1
  have hidx : u.index = (listSplit env.kPoints env.splitNum env.splitIndex).1 := by
    rw [hu]
    split_ifs
    · unfold outputMaterials; dsimp only; split_ifs <;> rfl
    · rfl
  obtain ⟨pre, hpre, hmat⟩ : ∃ pre, u.log = s.log ++ pre ∧ pre.all isMaterial := by
    rw [hu]
    split_ifs
    · unfold outputMaterials
      dsimp only
      split_ifs
      · exact ⟨[.epsilon, .mu], by simp [hlog0], rfl⟩
      · exact ⟨[.epsilon], by simp [hlog0], rfl⟩
    · exact ⟨[], by simp [hlog0], rfl⟩
  have hrun : (runParity env p reset (ps.map fun p => .fn p.fn) s).log =
      ((k :: ks).foldl (kStep env (entries env (ps.map fun p => .fn p.fn))) u).log := by
    unfold runParity
    dsimp only
    rw [if_pos hn, ← hk]
  obtain ⟨l, hl⟩ := mono _ hent (solveStep env k u)
  obtain ⟨l', hl'⟩ := hks ks (kStep env (entries env (ps.map fun p => .fn p.fn)) u k)
  refine ⟨u.rest, pre, l ++ l', ?_, hmat⟩
  have hsol : (solveStep env k u).log = s.log ++ pre ++ [.solve k ((listSplit env.kPoints env.splitNum env.splitIndex).1 + 1)
      (env.solver env.numBands k (start env p reset s) u.rest).2.1 (env.solver env.numBands k (start env p reset s) u.rest).1] := by
    rw [← hidx, ← heig, ← hpre]
    rfl
  rw [hrun, List.foldl_cons, hl']
  unfold kStep
  rw [hl, hsol]
  simp only [List.append_assoc, List.cons_append, List.nil_append]

/-- **C92, `randomize-fields`.**  With `randomize-fields?` set it is one of the functions called at every k-point; it is not called once more if the script
names it itself.  Without, only what the script names is called. -/
theorem C92_randomize (env : Env K E F X) (fs : List (Entry K E F X)) :
    randomizings (entries env fs) = (if env.always then max 1 (randomizings fs) else randomizings fs) ∧
    ∃ l, entries env fs = l ++ fs ∧ ∀ e ∈ l, e = .randomize := by
  have hany : fs.any Entry.isRandomize = true ↔ 1 ≤ randomizings fs := by
    induction fs with
    | nil => simp [randomizings]
    | cons e fs ih =>
      cases e with
      | randomize => simp [randomizings, Entry.isRandomize]
      | fn f => simpa [randomizings, Entry.isRandomize] using ih
  unfold entries
  by_cases ha : env.always = true
  · by_cases h : fs.any Entry.isRandomize = true
    · have := hany.1 h
      rw [ha, h]
      simp only [Bool.not_true, Bool.and_false, Bool.false_eq_true, if_false, if_true]
      exact ⟨by omega, [], rfl, by simp⟩
    · have h0 : randomizings fs = 0 := by
        by_contra hc
        exact h (hany.2 (by omega))
      rw [Bool.not_eq_true] at h
      rw [ha, h]
      simp only [Bool.not_false, Bool.and_true, if_true]
      refine ⟨?_, [.randomize], rfl, by simp⟩
      rw [h0]
      simp only [randomizings]
      rw [h0]
      rfl
  · rw [Bool.not_eq_true] at ha
    rw [ha]
    simp only [Bool.false_and, Bool.false_eq_true, if_false]
    exact ⟨trivial, [], rfl, by simp⟩

/-- Non-vacuity: one k-point, fields kept from before (5): the solver, which here returns what it is given plus one, finds them. -/
example : ∃ (env : Env Unit ℕ ℚ Unit) (s : St Unit ℕ ℚ Unit), 0 < env.numBands ∧
    (listSplit env.kPoints env.splitNum env.splitIndex).2 = [()] ∧ start env 0 .no s = 5 ∧ start env 0 .yes s = 0 ∧
    (runParity env 0 .no [] s).log = [.epsilon, .solve () 1 [1/2] 6] ∧ (runParity env 0 .yes [] s).log = [.epsilon, .solve () 1 [1/2] 1] := by
  refine ⟨⟨1, [()], 1, 0, false, 1, fun _ r e x => (if r then 0 else e, x), fun _ e x => (e, x), false, id, id, fun _ _ => (99, ()),
    fun _ _ e _ => (e + 1, [1/2], 1, ())⟩, ⟨5, (), [], 0, 0, (), [], [], [], [], []⟩, by decide, by decide, rfl, rfl, rfl, rfl⟩

/-! ## Several jobs -/

/-- **C92, several jobs.**  If the jobs 0, ..., n-1 of a split run each did their share, they solved together each k-point of the list once, with its
number in the list; and the material functions were written by the first of them only (if there are k-points). -/
theorem C92_jobs (env : Env K E F X) {n : ℕ} (hn : 0 < n) (W : Sol K V F → List (Ev K V F)) (v : E → V) (s s' : ℕ → St K E F X)
    (xs : ℕ → List (Sol K V F)) (h : ∀ i < n, Ran { env with splitNum := n, splitIndex := i } v W (s i) (s' i) (xs i)) :
    (List.range n).flatMap (fun i => (xs i).map fun x => (x.k, x.index)) = env.kPoints.zipIdx.map (fun x => (x.1, (x.2 : ℤ) + 1)) ∧
    (env.kPoints ≠ [] → ∀ i < n, ((listSplit env.kPoints n i).1 = 0 ↔ i = 0)) := by
  set b := (env.kPoints.length + n - 1) / n with hb
  constructor
  · have hx : ∀ i < n, (xs i).map (fun x => (x.k, x.index)) =
        ((env.kPoints.zipIdx.map (fun x => (x.1, (x.2 : ℤ) + 1))).drop (i * b)).take b := by
      intro i hi
      have H := h i hi
      have e := listSplit_eq env.kPoints n i hi
      have hp : (xs i).map (·.k) = (env.kPoints.drop (i * b)).take b := by
        have := H.points; dsimp only at this; rw [e] at this; exact this
      have hix : ∀ (j : ℕ) x, (xs i)[j]? = some x → x.index = ((i * b : ℕ) : ℤ) + j + 1 := by
        have := H.index; dsimp only at this; rw [e] at this; exact this
      apply List.ext_getElem?
      intro j
      have hk := congrArg (fun l : List K => l[j]?) hp
      simp only [List.getElem?_map] at hk ⊢
      rw [List.getElem?_take] at hk ⊢
      rw [List.getElem?_drop] at hk ⊢
      rw [List.getElem?_map, List.getElem?_zipIdx]
      cases hx : (xs i)[j]? with
      | none =>
        rw [hx] at hk
        split_ifs at hk ⊢
        · rw [← hk]; rfl
        · rfl
      | some x =>
        rw [hx] at hk
        split_ifs at hk ⊢
        · rw [← hk]
          simp only [Option.map_some, Option.some.injEq, Prod.mk.injEq, true_and]
          rw [hix j x hx]
          push_cast; ring
        · simp at hk
    have : (List.range n).flatMap (fun i => (xs i).map fun x => (x.k, x.index)) =
        (List.range n).flatMap (fun i => ((env.kPoints.zipIdx.map (fun x => (x.1, (x.2 : ℤ) + 1))).drop (i * b)).take b) := by
      apply List.flatMap_congr
      intro i hi
      exact hx i (List.mem_range.1 hi)
    rw [this, flatMap_chunks, List.take_of_length_le]
    have h1 := Nat.div_add_mod (env.kPoints.length + n - 1) n
    have h2 := Nat.mod_lt (env.kPoints.length + n - 1) hn
    simp only [List.length_map, List.length_zipIdx]
    rw [← hb] at h1
    have : n * b + n ≥ env.kPoints.length + n := by omega
    omega
  · intro hne i hi
    rw [listSplit_eq env.kPoints n i hi]
    have hl : 0 < env.kPoints.length := List.length_pos_iff.2 hne
    have hb0 : 0 < b := Nat.div_pos (by omega) hn
    simp only [← hb]
    constructor
    · intro h0
      have : i * b = 0 := by exact_mod_cast h0
      rcases Nat.mul_eq_zero.1 this with h | h <;> omega
    · rintro rfl; simp

/-- **C92, `mpb-split`, refuted.**  Whatever the number of processes and the k-points, `mpb-split` starts the first chunk twice: what it prints has the
first k-points twice, with the same numbers.  `out i`: the k-points solved by a process, with their numbers. -/
theorem C92_mpb_split_refuted (L : List K) (n : ℕ) (hn : 0 < n) (hL : L ≠ []) (out : ℕ → List (K × ℤ))
    (hout : ∀ i < n, out i = (listSplit L n i).2.zipIdx.map fun x => (x.1, (listSplit L n i).1 + x.2 + 1)) :
    printed n out = out 0 ++ (List.range n).flatMap out ∧ ∃ x, 2 ≤ ((printed n out).filter fun y => y.2 = x).length := by
  have hp : printed n out = out 0 ++ (List.range n).flatMap out := by
    unfold printed launched
    refine congrArg _ (List.flatMap_congr fun i hi => ?_)
    rw [if_pos hi]
  refine ⟨hp, 1, ?_⟩
  obtain ⟨a, L', rfl⟩ := List.exists_cons_of_ne_nil hL
  have h0 : ∃ l, out 0 = (a, 1) :: l := by
    rw [hout 0 hn]
    have e := listSplit_eq (a :: L') n 0 hn
    have hb : 0 < (((a :: L').length + n - 1) / n) := Nat.div_pos (by simp) hn
    obtain ⟨m, hm⟩ : ∃ m, ((a :: L').length + n - 1) / n = m + 1 := ⟨_, (Nat.succ_pred_eq_of_pos hb).symm⟩
    have e' : listSplit (a :: L') n ((0 : ℕ) : ℤ) = (0, a :: L'.take m) := by rw [e, hm]; simp
    rw [e']
    exact ⟨_, by simp [List.zipIdx_cons]; rfl⟩
  obtain ⟨l, hl⟩ := h0
  obtain ⟨m, rfl⟩ : ∃ m, n = m + 1 := ⟨n - 1, by omega⟩
  have : printed (m + 1) out = (a, 1) :: l ++ ((a, 1) :: l ++ ((List.range m).map (· + 1)).flatMap out) := by
    rw [hp, List.range_succ_eq_map, List.flatMap_cons, hl]
  rw [this]
  simp
  omega

/-! ## `randomize-fields?` -/

/-- **C92, `randomize-fields?`, refuted.**  If it is set ("whether to always randomize"), the fields are randomised between the solution of a k-point
and the band functions: with a band function that leaves the fields alone and is called for a band, the eigenvectors it finds are not those
the solver computed. -/
theorem C92_randomize_refuted : ∃ (env : Env Unit ℕ ℚ Unit) (s : St Unit ℕ ℚ Unit) (p : Prim Unit ℕ ℚ Unit), Leaves id p ∧ 0 < env.numBands ∧
    (runParity env 0 .yes [.fn p.fn] s).log.map (view id) =
      [.epsilon, .solve () 1 [1/2] 7, .call p.id (some 1) () 1 [1/2] 99] := by
  refine ⟨⟨1, [()], 1, 0, true, 1, fun _ _ e x => (e, x), fun _ e x => (e, x), false, id, id, fun _ _ => (99, ()),
    fun _ _ _ _ => (7, [1/2], 1, ())⟩, ⟨0, (), [], 0, 0, (), [], [], [], [], []⟩, ⟨3, false, fun _ s => (s.eig, s.rest)⟩, fun _ _ => rfl,
    by decide, ?_⟩
  rfl

/-! ## Band functions made of others -/

/-- The calls for one band by `combine-band-functions`. -/
def callsAt (ps : List (Prim K E F X)) (b : ℕ) (x : Sol K V F) : List (Ev K V F) :=
  ps.flatMap fun p => if p.thunk then (if b = 1 then [.call p.id none x.k x.index x.freqs x.eig] else [])
    else [.call p.id (some b) x.k x.index x.freqs x.eig]

omit [Field F] [LinearOrder F] in
theorem logs_apply {v : E → V} {p : Prim K E F X} (hp : Leaves v p) (b : ℕ) (s : St K E F X) :
    Logs v (applyBandFunc p.fn b) (callsAt [p] b) s := by
  unfold applyBandFunc applyBandFuncThunk Prim.fn callsAt
  cases hb : p.thunk with
  | true =>
    by_cases h1 : b = 1
    · simpa [hb, h1] using logs_prim hp none s
    · simpa [hb, h1] using logs_id s
  | false => simpa [hb] using logs_prim hp (some b) s

omit [Field F] [LinearOrder F] in
theorem logs_combine {v : E → V} {ps : List (Prim K E F X)} (hp : ∀ p ∈ ps, Leaves v p) (b : ℕ) (s : St K E F X) :
    Logs v (fun s => (ps.map Prim.fn).foldl (fun s f => applyBandFunc f b s) s) (callsAt ps b) s := by
  have := logs_fold (fun p s => applyBandFunc p.fn b s) (fun p => callsAt [p] b) ps (fun p h s => logs_apply (hp p h) b s) s
  have e : callsAt (V := V) ps b = fun x => ps.flatMap fun p => callsAt [p] b x := by funext x; simp [callsAt]
  rw [e]
  simpa [List.foldl_map] using this

omit [Field F] [LinearOrder F] in
theorem callsAt_perm {n : ℕ} (hn : 0 < n) (ps : List (Prim K E F X)) (x : Sol K V F) :
    ((List.range n).flatMap fun b => callsAt ps (b + 1) x).Perm (calls n ps x) := by
  induction ps with
  | nil => simp [callsAt, calls]
  | cons p ps ih =>
    have e : (fun b => callsAt (p :: ps) (b + 1) x) = fun b => callsAt [p] (b + 1) x ++ callsAt ps (b + 1) x := by
      funext b; simp [callsAt]
    have e' : calls n (p :: ps) x = calls n [p] x ++ calls n ps x := by simp [calls]
    rw [e, e']
    refine (List.flatMap_append_perm _ _ _).symm.trans (List.Perm.append ?_ ih)
    obtain ⟨m, rfl⟩ : ∃ m, n = m + 1 := ⟨n - 1, by omega⟩
    cases hb : p.thunk with
    | true =>
      rw [List.range_succ_eq_map]
      simp [callsAt, calls, hb, List.flatMap_map]
    | false =>
      simp [callsAt, calls, hb, List.map_eq_flatMap]

/-- **C92, `combine-band-functions`.**  The combination is called for all the functions and bands as the functions themselves would be (a function
without argument once), in another order. -/
theorem C92_combine (env : Env K E F X) (ha : env.always = false) (hn : 0 < env.numBands) (ps : List (Prim K E F X))
    (hp : ∀ p ∈ ps, Leaves id p) (p : ℤ) (reset : Reset) (s : St K E F X) :
    ∃ W : Sol K E F → List (Ev K E F), (∀ x, (W x).Perm (calls env.numBands ps x)) ∧
    ∃ xs, Ran env id W s (runParity env p reset [.fn (combine (ps.map Prim.fn))] s) xs := by
  refine ⟨fun x => (List.range env.numBands).flatMap fun b => callsAt ps (b + 1) x, callsAt_perm hn ps, ?_⟩
  refine run_ran env id (fun s => ?_) hn p reset s
  rw [entries_of_not ha]
  exact logs_fold (fun b s => (ps.map Prim.fn).foldl (fun s f => applyBandFunc f (b + 1) s) s) (fun b => callsAt ps (b + 1))
    (List.range env.numBands) (fun b _ s => logs_combine hp (b + 1) s) s

/-- **C92, `output-at-kpoint`.**  The functions are called at the k-points close to the given one, and at no other. -/
theorem C92_at_kpoint (env : Env K E F X) (ha : env.always = false) (hn : 0 < env.numBands) (close : K → K → Bool) (k : K)
    (ps : List (Prim K E F X)) (hp : ∀ p ∈ ps, Leaves id p) (p : ℤ) (reset : Reset) (s : St K E F X) :
    ∃ W : Sol K E F → List (Ev K E F), (∀ x, (W x).Perm (if close x.k k then calls env.numBands ps x else [])) ∧
    ∃ xs, Ran env id W s (runParity env p reset [.fn (atKpoint close k (ps.map Prim.fn))] s) xs := by
  refine ⟨fun x => (List.range env.numBands).flatMap fun b => if close x.k k then callsAt ps (b + 1) x else [], fun x => ?_, ?_⟩
  · cases h : close x.k k with
    | true => simpa [h] using callsAt_perm hn ps x
    | false => simp [h]
  · refine run_ran env id (fun s => ?_) hn p reset s
    rw [entries_of_not ha]
    refine logs_fold (fun b s => if close s.currentK k then (ps.map Prim.fn).foldl (fun s f => applyBandFunc f (b + 1) s) s else s)
      (fun b x => if close x.k k then callsAt ps (b + 1) x else [])
      (List.range env.numBands) (fun b _ s => ?_) s
    cases h : close s.currentK k with
    | true =>
      have h' := logs_combine (v := id) hp (b + 1) s
      exact ⟨by simpa [h] using h'.keeps, by simpa [h] using h'.eig, by simpa [h, solOf] using h'.log⟩
    | false => exact ⟨by simpa [h] using Keeps.refl s, by simp [h], by simp [h, solOf]⟩

/-- **C92, `output-dpwr-in-objects`.**  A function of the band is called for the bands with at least the given fraction of the energy in the objects,
and for no other.  Missing: functions without argument, see `C92_dpwr_refuted`. -/
theorem C92_dpwr_partial (env : Env K E F X) (ha : env.always = false) (hn : 0 < env.numBands) (energy : ℕ → E → F) (load : ℕ → E → X → X)
    (q : Prim K E F X) (hq : Leaves id q) (ht : q.thunk = false) (minEnergy : F) (p : ℤ) (reset : Reset) (s : St K E F X) :
    ∃ xs, Ran env id (fun x => ((List.range env.numBands).filter fun b => minEnergy ≤ energy (b + 1) x.eig).map fun b =>
        .call q.id (some (b + 1)) x.k x.index x.freqs x.eig) s
      (runParity env p reset [.fn (dpwrInObjects energy load q.fn minEnergy)] s) xs := by
  refine run_ran env id (fun s => ?_) hn p reset s
  rw [entries_of_not ha]
  have h := logs_fold (v := id) (fun b s => (if minEnergy ≤ energy (b + 1) s.eig then
        applyBandFunc q.fn (b + 1) { s with rest := load (b + 1) s.eig s.rest } else { s with rest := load (b + 1) s.eig s.rest }))
      (fun b x => if minEnergy ≤ energy (b + 1) x.eig then [.call q.id (some (b + 1)) x.k x.index x.freqs x.eig] else [])
      (List.range env.numBands) (fun b _ s => ?_) s
  · have e : (fun x : Sol K E F => (List.range env.numBands).flatMap fun b =>
        if minEnergy ≤ energy (b + 1) x.eig then [Ev.call q.id (some (b + 1)) x.k x.index x.freqs x.eig] else []) =
        fun x => ((List.range env.numBands).filter fun b => minEnergy ≤ energy (b + 1) x.eig).map fun b =>
        .call q.id (some (b + 1)) x.k x.index x.freqs x.eig := by
      funext x
      generalize List.range env.numBands = l
      induction l with
      | nil => rfl
      | cons b l ih => by_cases hb : minEnergy ≤ energy (b + 1) x.eig <;> simp [hb, ih]
    rw [← e]
    exact h
  · by_cases hb : minEnergy ≤ energy (b + 1) s.eig
    · have h' := logs_apply hq (b + 1) { s with rest := load (b + 1) s.eig s.rest }
      refine ⟨?_, ?_, ?_⟩
      · rw [if_pos hb]
        exact Keeps.trans (t := { s with rest := load (b + 1) s.eig s.rest }) ⟨rfl, rfl, rfl, rfl, rfl, rfl⟩ h'.keeps
      · rw [if_pos hb]; exact h'.eig
      · rw [if_pos hb]; simpa [callsAt, ht, solOf, hb] using h'.log
    · refine ⟨?_, ?_, ?_⟩
      · rw [if_neg hb]; exact ⟨rfl, rfl, rfl, rfl, rfl, rfl⟩
      · rw [if_neg hb]
      · rw [if_neg hb]; simp [solOf, hb]

/-- An environment for examples: the solver finds the fields `n` and the frequencies 1/2, 1/2 + 1, ... -/
def exEnv (bands : ℕ) (ks : List ℕ) (num index : ℤ) : Env ℕ ℕ ℚ Unit :=
  ⟨bands, ks, num, index, false, 100, fun _ _ e x => (e, x), fun _ e x => (e, x), false, id, id, fun _ _ => (99, ()),
    fun n k _ _ => (k, (List.range n).map fun i => (i : ℚ) + 1/2, 1, ())⟩

def exSt : St ℕ ℕ ℚ Unit := ⟨0, (), [], 0, 0, 0, [], [], [], [], []⟩

def exPrim (thunk : Bool) : Prim ℕ ℕ ℚ Unit := ⟨3, thunk, fun _ s => (s.eig, s.rest)⟩

/-- **C92, `output-dpwr-in-objects`, refuted.**  With a function without argument, which is to be called where a band has its energy in the objects,
nothing is called if it is the second band. -/
theorem C92_dpwr_refuted : ∃ (energy : ℕ → ℕ → ℚ), (1/2 : ℚ) ≤ energy 2 5 ∧
    (runParity (exEnv 2 [5] 1 0) 0 .yes [.fn (dpwrInObjects energy (fun _ _ x => x) (exPrim true).fn (1/2))] exSt).log.map (view id) =
      [.epsilon, .solve 5 1 [1/2, 3/2] 5] := by
  refine ⟨fun b _ => if b = 2 then 1 else 0, by norm_num, ?_⟩
  norm_num [runParity, entries, exEnv, runInit, exSt, outputMaterials, listSplit, listSub, kStep, solveStep, solveKpoint, callEntry, dpwrInObjects,
    Prim.fn, exPrim, applyBandFunc, applyBandFuncThunk, List.range_succ, view, Reset.isTrue]

/-! ## `find-k` -/

/-- **C92, `find-k`.**  In one job: for each band and the k-point found for it, that k-point is solved, and every function is called once, with this
band or without argument.  Missing: split runs, see `C92_find_k_split_refuted`. -/
theorem C92_find_k_partial (env : Env K E F X) (ha : env.always = false) (h1 : env.splitNum = 1) (h0 : env.splitIndex = 0)
    (ps : List (Prim K E F X)) (hp : ∀ p ∈ ps, Leaves id p) (p : ℤ) (bks : List (ℕ × K)) (hb : ∀ bk ∈ bks, 0 < bk.1) (s : St K E F X) :
    ∃ xs : List (Sol K E F), xs.map (·.k) = bks.map (·.2) ∧
      (∀ y ∈ bks.zip xs, ∃ e z, (env.solver y.1.1 y.2.k e z).1 = y.2.eig ∧ (env.solver y.1.1 y.2.k e z).2.1 = y.2.freqs) ∧
      (findKFuncs env p (ps.map Prim.fn) bks s).log.map (view id) = s.log.map (view id) ++ (bks.zip xs).flatMap fun y =>
        .epsilon :: (if env.usingMu then [.mu] else []) ++ .solve y.2.k 1 y.2.freqs y.2.eig ::
          ps.map fun q => .call q.id (if q.thunk then none else some y.1.1) y.2.k 1 y.2.freqs y.2.eig := by
  induction bks generalizing s with
  | nil => exact ⟨[], rfl, by simp, by simp [findKFuncs]⟩
  | cons bk bks ih =>
    set env' : Env K E F X := { env with numBands := bk.1, kPoints := [bk.2] } with henv
    set g : ℕ → St K E F X → St K E F X := fun b s => if b = bk.1 then (ps.map Prim.fn).foldl (fun s f => applyBandFuncThunk f bk.1 true s) s else s
    obtain ⟨xs, e1, e2, e3⟩ := ih (fun bk' h => hb bk' (by simp [h])) (runParity env' p .no [.fn (.band g)] s)
    have hone : ∀ (q : Prim K E F X), q ∈ ps → ∀ s, Logs id (fun s => applyBandFuncThunk q.fn bk.1 true s)
        (fun x => [.call q.id (if q.thunk then none else some bk.1) x.k x.index x.freqs x.eig]) s := by
      intro q hq s
      unfold applyBandFuncThunk Prim.fn
      cases ht : q.thunk with
      | true => simpa [ht] using logs_prim (hp q hq) none s
      | false => simpa [ht] using logs_prim (hp q hq) (some bk.1) s
    have hall : ∀ s, Logs id (fun s => (ps.map Prim.fn).foldl (fun s f => applyBandFuncThunk f bk.1 true s) s)
        (fun x => ps.map fun q => .call q.id (if q.thunk then none else some bk.1) x.k x.index x.freqs x.eig) s := by
      intro s
      have := logs_fold (v := id) (fun q s => applyBandFuncThunk q.fn bk.1 true s) _ ps (fun q h s => hone q h s) s
      simp only [List.foldl_map]
      simp only [← List.map_eq_flatMap] at this
      exact this
    have hg : ∀ s, Logs id (fun s => [Entry.fn (.band g)].foldl (callEntry env') s)
        (fun x => ps.map fun q => .call q.id (if q.thunk then none else some bk.1) x.k x.index x.freqs x.eig) s := by
      intro s
      have := logs_fold (v := id) (fun b s => g (b + 1) s) (fun b x => if b + 1 = bk.1 then
        ps.map fun q => .call q.id (if q.thunk then none else some bk.1) x.k x.index x.freqs x.eig else []) (List.range bk.1)
        (fun b _ s => by
          by_cases hbk : b + 1 = bk.1
          · simpa [g, hbk] using hall s
          · simpa [g, hbk] using logs_id s) s
      obtain ⟨m, hm⟩ : ∃ m, bk.1 = m + 1 := ⟨bk.1 - 1, by have := hb bk (by simp); omega⟩
      have e : (fun x : Sol K E F => (List.range bk.1).flatMap fun b => if b + 1 = bk.1 then
          ps.map fun q => Ev.call q.id (if q.thunk then none else some bk.1) x.k x.index x.freqs x.eig else []) =
          fun x => ps.map fun q => .call q.id (if q.thunk then none else some bk.1) x.k x.index x.freqs x.eig := by
        funext x
        rw [hm, List.range_succ, List.flatMap_append]
        have : (List.range m).flatMap (fun b => if b + 1 = m + 1 then
          ps.map fun q => Ev.call q.id (if q.thunk then none else some (m + 1)) x.k x.index x.freqs x.eig else []) = [] := by
          rw [List.flatMap_eq_nil_iff]
          intro b hb
          have := List.mem_range.1 hb
          rw [if_neg (by omega)]
        rw [this]; simp
      rw [e] at this
      exact this
    obtain ⟨ys, R⟩ := run_ran env' id (W := fun x => ps.map fun q => .call q.id (if q.thunk then none else some bk.1) x.k x.index x.freqs x.eig)
      (fs := [.fn (.band g)]) (fun s => by rw [entries_of_not (by simpa [henv] using ha)]; exact hg s) (hb bk (by simp)) p .no s
    have hs : listSplit env'.kPoints env'.splitNum env'.splitIndex = (0, [bk.2]) := by
      rw [henv, h1, h0]; exact C92_whole _
    have hpts := R.points
    have hix := R.index
    have hsol := R.solved
    have hlog := R.log
    rw [hs] at hpts hix hlog
    obtain ⟨y, rfl⟩ : ∃ y, ys = [y] := by
      have := congrArg List.length hpts
      exact List.length_eq_one_iff.1 (by simpa using this)
    have hy : y.index = 1 := by have := hix 0 y rfl; simpa using this
    refine ⟨y :: xs, ?_, ?_, ?_⟩
    · simpa [e1] using hpts
    · intro z hz
      rw [List.zip_cons_cons, List.mem_cons] at hz
      rcases hz with rfl | hz
      · exact hsol y (by simp)
      · exact e2 z hz
    · have : findKFuncs env p (ps.map Prim.fn) (bk :: bks) s =
        findKFuncs env p (ps.map Prim.fn) bks (runParity env' p .no [.fn (.band g)] s) := rfl
      rw [this, e3, hlog]
      simp [hy, henv]

/-- **C92, `find-k` in a split run, refuted.**  In the second of two jobs `find-k` calls no band function at all: its runs have one k-point, which is
in the share of the first job. -/
theorem C92_find_k_split_refuted (env : Env K E F X) (i n : ℕ) (hi : 0 < i) (hin : i < n) (h1 : env.splitNum = n) (h0 : env.splitIndex = i)
    (fs : List (BandFn K E F X)) (p : ℤ) (bks : List (ℕ × K)) (s : St K E F X) : (findKFuncs env p fs bks s).log = s.log := by
  induction bks generalizing s with
  | nil => rfl
  | cons bk bks ih =>
    refine (ih _).trans ?_
    have hs : listSplit [bk.2] env.splitNum env.splitIndex = ((i : ℤ), []) := by
      rw [h1, h0, listSplit_eq _ _ _ hin]
      have : ([bk.2].length + n - 1) / n = 1 := by
        simp only [List.length_singleton]
        rw [show 1 + n - 1 = n by omega]
        exact Nat.div_self (by omega)
      rw [this]
      obtain ⟨j, rfl⟩ : ∃ j, i = j + 1 := ⟨i - 1, by omega⟩
      simp
    have hne : ¬ ((i : ℤ) = 0) := by omega
    unfold runParity
    simp only [hs]
    rw [if_neg hne]
    have hl := runInit_log { env with numBands := bk.1, kPoints := [bk.2] } p .no s
    split_ifs <;> simpa using hl.1

/-- **C92, `combine-band-functions` in `find-k`, refuted.**  A combined function without argument is called for the first band only, while by itself it
is called for each. -/
theorem C92_find_k_combine_refuted :
    (findKFuncs (exEnv 0 [] 1 0) 0 [combine [(exPrim true).fn]] [(2, 5)] exSt).log.map (view id) = [.epsilon, .solve 5 1 [1/2, 3/2] 5] ∧
    (findKFuncs (exEnv 0 [] 1 0) 0 [(exPrim true).fn] [(2, 5)] exSt).log.map (view id) =
      [.epsilon, .solve 5 1 [1/2, 3/2] 5, .call 3 none 5 1 [1/2, 3/2] 5] := by
  constructor <;>
  norm_num [findKFuncs, combine, runParity, entries, exEnv, runInit, exSt, outputMaterials, listSplit, listSub, kStep, solveStep, solveKpoint, callEntry,
    Prim.fn, exPrim, applyBandFunc, applyBandFuncThunk, List.range_succ, view, Reset.isTrue, Prim.call]

/-! ## The hypotheses are met -/

/-- Two bands, three k-points, a function of the band and one without argument. -/
example : ∃ xs, Ran (exEnv 2 [5, 6, 7] 1 0) id (calls 2 [exPrim false, exPrim true]) exSt
    (runParity (exEnv 2 [5, 6, 7] 1 0) 0 .yes ([exPrim false, exPrim true].map fun p => .fn p.fn) exSt) xs :=
  C92_run_partial _ rfl (by decide) _ (by simp [Leaves, exPrim]) 0 .yes exSt

/-- The second of two jobs has the third k-point. -/
example : (runParity (exEnv 1 [5, 6, 7] 2 1) 0 .yes [.fn (exPrim false).fn] exSt).log.map (view id) =
    [.solve 7 3 [1/2] 7, .call 3 (some 1) 7 3 [1/2] 7] := by
  have h : listSplit [5, 6, 7] 2 1 = (2, [7]) := by decide
  norm_num [runParity, entries, exEnv, runInit, exSt, outputMaterials, h, kStep, solveStep, solveKpoint, callEntry,
    Prim.fn, exPrim, List.range_succ, view, Reset.isTrue, Prim.call]

example : ∃ xs : List (Sol ℕ ℕ ℚ), xs.map (·.k) = [6, 5] :=
  (fun ⟨xs, h, _⟩ => ⟨xs, h⟩) <| C92_find_k_partial (exEnv 0 [] 1 0) rfl rfl rfl [exPrim true, exPrim false] (by simp [Leaves, exPrim]) 0 [(2, 6), (1, 5)] (by simp) exSt

end Mpb.Run

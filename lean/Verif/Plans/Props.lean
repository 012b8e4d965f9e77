import Verif.Plans.Model

namespace Mpb.Plans

/-- the plans among the objects released -/
def planList (d : MData) : List ℕ := (List.range d.nplans).flatMap (fun i => [d.plans i, d.iplans i])

/-- the rest -/
def restList (d : MData) : List ℕ :=
  [d.epsInv] ++ d.muInv.toList ++ [d.fftData] ++ (if d.fftData2 ≠ d.fftData then [d.fftData2] else []) ++ [d.kG, d.kG2, d.self]

theorem destroyOrder_eq (d : MData) : destroyOrder d = planList d ++ restList d := by
  simp [destroyOrder, planList, restList, List.append_assoc]

theorem freeAll_spec : ∀ (l : List ℕ) (h : Heap), l.Nodup → (∀ x ∈ l, (h.at_ x).isSome) →
    ∃ h', freeAll l h = some h' ∧ h'.next = h.next ∧ ∀ x, h'.at_ x = if x ∈ l then none else h.at_ x
  | [], h, _, _ => ⟨h, rfl, rfl, fun x => by simp⟩
  | k :: l, h, hn, hl => by
      have hk := hl k (by simp)
      obtain ⟨hk', hn'⟩ := List.nodup_cons.mp hn
      obtain ⟨h', e, n, a⟩ := freeAll_spec l { h with at_ := Function.update h.at_ k none } hn' (fun x hx => by
        have : x ≠ k := fun c => hk' (c ▸ hx)
        simp only [Function.update_of_ne this]
        exact hl x (by simp [hx]))
      refine ⟨h', ?_, n, fun x => ?_⟩
      · simp only [freeAll, List.foldlM_cons, free, hk, if_true]
        exact e
      · rw [a x]
        by_cases c : x = k
        · subst c; simp
        · simp [c, Function.update_of_ne c]

theorem search_spec (d : MData) (L : Layout) : ∀ (k ip : ℕ), d.nplans - ip ≤ k → ip ≤ d.nplans →
    search d L ip ≤ d.nplans ∧ (search d L ip < d.nplans → d.key (search d L ip) = L) ∧ ip ≤ search d L ip ∧
      ∀ j, ip ≤ j → j < search d L ip → d.key j ≠ L := by
  intro k
  induction k with
  | zero =>
    intro ip hk hip
    rw [search, if_neg (by omega)]
    exact ⟨hip, fun c => by omega, le_refl _, fun j _ _ => by omega⟩
  | succ k ih =>
    intro ip hk hip
    rw [search]
    by_cases c : ip < d.nplans ∧ (L.howmany ≠ (d.key ip).howmany ∨ L.stride ≠ (d.key ip).stride ∨ L.dist ≠ (d.key ip).dist)
    · rw [if_pos c]
      obtain ⟨a, b, e, f⟩ := ih (ip + 1) (by omega) (by omega)
      refine ⟨a, b, by omega, fun j h1 h2 => ?_⟩
      rcases Nat.eq_or_lt_of_le h1 with q | q
      · subst q
        intro q
        rw [q] at c
        simp at c
      · exact f j q h2
    · rw [if_neg c]
      refine ⟨hip, fun q => ?_, le_refl _, fun j _ _ => by omega⟩
      have : ¬ (L.howmany ≠ (d.key ip).howmany ∨ L.stride ≠ (d.key ip).stride ∨ L.dist ≠ (d.key ip).dist) := fun w => c ⟨q, w⟩
      push Not at this
      obtain ⟨x, y, z⟩ := this
      cases L
      cases hk : d.key ip
      simp_all

/-- the state of a session that has been seen as `v` -/
structure Inv (real : Bool) (v : Seen) (d : MData) (h : Heap) : Prop where
  grid : d.grid = v.grid
  maxFft : d.maxFft = min v.nb numFftBands
  same : d.fftData2 = d.fftData
  keys : (List.range d.nplans).map d.key = v.layouts.take maxNplans
  nodup : (destroyOrder d).Nodup
  live : ∀ x, (h.at_ x).isSome ↔ x ∈ destroyOrder d
  lt : ∀ x ∈ destroyOrder d, x < h.next
  data : h.at_ d.fftData = some (.block (3 * (v.grid.fftSize real * min v.nb numFftBands)))
  plans : ∀ i, i < d.nplans → h.at_ (d.plans i) = some (.plan (planFor real true v.grid (d.key i) true))
  iplans : ∀ i, i < d.nplans → h.at_ (d.iplans i) = some (.plan (planFor real false v.grid (d.key i) true))

theorem Inv.dead {real : Bool} {v : Seen} {d : MData} {h : Heap} (i : Inv real v d h) (x : ℕ) (hx : h.next ≤ x) : h.at_ x = none := by
  by_contra c
  have := i.lt x ((i.live x).mp (by cases q : h.at_ x <;> simp_all))
  omega

theorem Inv.nplans {real : Bool} {v : Seen} {d : MData} {h : Heap} (i : Inv real v d h) : d.nplans = min maxNplans v.layouts.length := by
  have := congrArg List.length i.keys
  simpa using this

theorem create_inv (real : Bool) (g : Grid) (nb : ℕ) (junk : ℕ → ℕ × ℕ × Layout) (h : Heap) (h0 : ∀ x, h.at_ x = none) :
    Inv real ⟨g, nb, []⟩ (create real g nb junk h).1 (create real g nb junk h).2 where
  grid := rfl
  maxFft := rfl
  same := rfl
  keys := by simp [create]
  nodup := by
    simp [create, destroyOrder, alloc]
    omega
  live := by
    intro x
    simp only [create, destroyOrder, alloc, List.range_zero, List.flatMap_nil, Function.update_apply, h0]
    simp only [ne_eq, not_true_eq_false, if_false, Option.toList_none, List.append_nil, List.nil_append, List.cons_append, List.mem_cons, List.not_mem_nil,
      or_false]
    split_ifs <;> simp only [Option.isSome_some, Option.isSome_none, true_iff, false_iff, Bool.false_eq_true] <;> omega
  lt := by
    intro x hx
    simp [create, destroyOrder, alloc] at hx ⊢
    omega
  data := by simp [create, alloc, Function.update_apply]
  plans := fun i hi => by simp [create] at hi
  iplans := fun i hi => by simp [create] at hi

theorem destroy_inv {real : Bool} {v : Seen} {d : MData} {h : Heap} (i : Inv real v d h) :
    ∃ h', destroy d h = some h' ∧ ∀ x, h'.at_ x = none := by
  obtain ⟨h', e, _, a⟩ := freeAll_spec (destroyOrder d) h i.nodup (fun x hx => (i.live x).mpr hx)
  refine ⟨h', e, fun x => ?_⟩
  rw [a x]
  by_cases c : x ∈ destroyOrder d
  · simp [c]
  · rw [if_neg c]
    have := fun q => c ((i.live x).mp q)
    cases q : h.at_ x <;> simp_all

theorem mu_inv {real : Bool} {v : Seen} {d : MData} {h : Heap} (i : Inv real v d h) :
    Inv real v (setMu real d h).1 (setMu real d h).2 := by
  cases hm : d.muInv with
  | some m => simpa [setMu, hm] using i
  | none =>
    have perm : (destroyOrder { d with muInv := some h.next }).Perm (h.next :: destroyOrder d) := by
      have e1 : destroyOrder { d with muInv := some h.next } = (planList d ++ [d.epsInv]) ++ h.next :: ([d.fftData] ++
          (if d.fftData2 ≠ d.fftData then [d.fftData2] else []) ++ [d.kG, d.kG2, d.self]) := by
        simp [destroyOrder, planList]
      have e2 : destroyOrder d = (planList d ++ [d.epsInv]) ++ ([d.fftData] ++
          (if d.fftData2 ≠ d.fftData then [d.fftData2] else []) ++ [d.kG, d.kG2, d.self]) := by
        simp [destroyOrder, planList, hm]
      rw [e1, e2]
      exact List.perm_middle
    have ne : ∀ x ∈ destroyOrder d, x ≠ h.next := fun x hx => by have := i.lt x hx; omega
    have old : ∀ x o, h.at_ x = some o → Function.update h.at_ h.next (some (.block (d.grid.outSize real))) x = some o := by
      intro x o hx
      rw [Function.update_of_ne (ne x ((i.live x).mp (by simp [hx]))), hx]
    have e : setMu real d h = ({ d with muInv := some h.next }, ⟨h.next + 1, Function.update h.at_ h.next (some (.block (d.grid.outSize real)))⟩) := by
      simp [setMu, hm, alloc]
    rw [e]
    exact {
      grid := i.grid, maxFft := i.maxFft, same := i.same, keys := i.keys
      nodup := perm.nodup_iff.mpr (List.nodup_cons.mpr ⟨fun c => ne _ c rfl, i.nodup⟩)
      live := fun x => by
        rw [perm.mem_iff, List.mem_cons]
        by_cases c : x = h.next
        · simp [c]
        · simp only [Function.update_of_ne c, c, false_or]
          exact i.live x
      lt := fun x hx => by
        rcases List.mem_cons.mp (perm.mem_iff.mp hx) with c | c
        · simp [c]
        · have := i.lt x c
          simp only
          omega
      data := old _ _ i.data
      plans := fun k hk => old _ _ (i.plans k hk)
      iplans := fun k hk => old _ _ (i.iplans k hk) }

theorem accepts_planFor (real back : Bool) (g : Grid) (L : Layout) (b : Bool) : accepts real back (planFor real back g L b).kind = true := by
  cases real <;> cases back <;> rfl

/-- the specification's step for a transform -/
def seeFft (v : Seen) (L : Layout) : Seen := if L ∈ v.layouts then v else { v with layouts := v.layouts ++ [L] }

theorem fft_inv {real : Bool} {v : Seen} {d : MData} {h : Heap} (i : Inv real v d h) (back : Bool) (a : ℕ) (L : Layout) :
    ∃ d' h', computeFft real back a a L d h = some (⟨planFor real back v.grid L true, a, a⟩, d', h') ∧ Inv real (seeFft v L) d' h' ∧
      d'.fftData = d.fftData ∧ (L ∈ v.layouts.take maxNplans → h'.next = h.next) := by
  obtain ⟨s1, s2, _, s4⟩ := search_spec d L d.nplans 0 (by omega) (by omega)
  have hn := i.nplans
  by_cases c : search d L 0 < d.nplans
  · -- found
    have hk := s2 c
    have hp := i.plans _ c
    have hq := i.iplans _ c
    rw [hk] at hp hq
    have mem : L ∈ v.layouts.take maxNplans := by
      rw [← i.keys, ← hk]
      exact List.mem_map.mpr ⟨_, List.mem_range.mpr c, rfl⟩
    have mem' : L ∈ v.layouts := List.mem_of_mem_take mem
    refine ⟨d, h, ?_, by rw [seeFft, if_pos mem']; exact i, rfl, fun _ => rfl⟩
    have e1 : obtain_ real d (search d L 0) L (a == a) h = ((d.plans (search d L 0), d.iplans (search d L 0)), h) := by
      rw [obtain_, if_pos c]
    have e2 : execute real back (if back then d.plans (search d L 0) else d.iplans (search d L 0)) a a h = some ⟨planFor real back v.grid L true, a, a⟩ := by
      have : h.at_ (if back then d.plans (search d L 0) else d.iplans (search d L 0)) = some (.plan (planFor real back v.grid L true)) := by
        cases back <;> simp [hp, hq]
      simp [execute, this, accepts_planFor]
    have e3 : retain d (search d L 0) L (d.plans (search d L 0)) (d.iplans (search d L 0)) h = some (d, h) := by
      rw [retain, if_neg (by omega), if_neg (by omega)]
    simp only [computeFft, e1, e2, e3, Option.bind_eq_bind, Option.bind_some, Option.pure_def]
  · have ce : search d L 0 = d.nplans := by omega
    have nmem : L ∉ v.layouts.take maxNplans := by
      rw [← i.keys]
      intro q
      obtain ⟨j, hj, q⟩ := List.mem_map.mp q
      exact s4 j (by omega) (by rw [ce]; exact List.mem_range.mp hj) q
    set h1 : Heap := ⟨h.next + 1 + 1, Function.update (Function.update h.at_ h.next (some (.plan (planFor real true v.grid L true)))) (h.next + 1)
      (some (.plan (planFor real false v.grid L true)))⟩ with hh1
    have e1 : obtain_ real d (search d L 0) L (a == a) h = ((h.next, h.next + 1), h1) := by
      rw [obtain_, if_neg c, hh1]
      simp [alloc, i.grid]
    have ap : h1.at_ h.next = some (.plan (planFor real true v.grid L true)) := by simp [hh1]
    have aq : h1.at_ (h.next + 1) = some (.plan (planFor real false v.grid L true)) := by simp [hh1]
    have ao : ∀ x, x ≠ h.next → x ≠ h.next + 1 → h1.at_ x = h.at_ x := fun x p q => by simp [hh1, Function.update_of_ne, p, q]
    have e2 : execute real back (if back then h.next else h.next + 1) a a h1 = some ⟨planFor real back v.grid L true, a, a⟩ := by
      have : h1.at_ (if back then h.next else h.next + 1) = some (.plan (planFor real back v.grid L true)) := by
        cases back <;> simp [ap, aq]
      simp [execute, this, accepts_planFor]
    have ne : ∀ x ∈ destroyOrder d, x ≠ h.next ∧ x ≠ h.next + 1 := fun x hx => by have := i.lt x hx; omega
    have old : ∀ x o, h.at_ x = some o → h1.at_ x = some o := fun x o hx => by
      obtain ⟨p, q⟩ := ne x ((i.live x).mp (by simp [hx]))
      rw [ao x p q, hx]
    by_cases full : d.nplans = maxNplans
    · -- the cache is full
      refine ⟨d, ⟨h.next + 1 + 1, h.at_⟩, ?_, ?_, rfl, fun q => absurd q nmem⟩
      · have e3 : retain d (search d L 0) L h.next (h.next + 1) h1 = some (d, ⟨h.next + 1 + 1, h.at_⟩) := by
          rw [retain, if_pos (by omega)]
          have f1 : free h.next h1 = some ⟨h.next + 1 + 1, Function.update h1.at_ h.next none⟩ := by
            simp [free, ap, hh1]
          have f2 : free (h.next + 1) ⟨h.next + 1 + 1, Function.update h1.at_ h.next none⟩ = some ⟨h.next + 1 + 1, h.at_⟩ := by
            have : (Function.update h1.at_ h.next none) (h.next + 1) = some (.plan (planFor real false v.grid L true)) := by
              rw [Function.update_of_ne (by omega), aq]
            simp only [free, this, Option.isSome_some, if_true, Option.some.injEq, Heap.mk.injEq, true_and]
            funext x
            by_cases p : x = h.next + 1
            · rw [p, Function.update_self, i.dead _ (by omega)]
            · rw [Function.update_of_ne p]
              by_cases q : x = h.next
              · rw [q, Function.update_self, i.dead _ (by omega)]
              · rw [Function.update_of_ne q, ao x q p]
          simp only [f1, f2, Option.bind_eq_bind, Option.bind_some, Option.pure_def]
        simp only [computeFft, e1, e2, e3, Option.bind_eq_bind, Option.bind_some, Option.pure_def]
      · have hl : maxNplans ≤ v.layouts.length := by omega
        have keys : v.layouts.take maxNplans = (seeFft v L).layouts.take maxNplans := by
          rw [seeFft]
          split_ifs
          · rfl
          · simp [List.take_append_of_le_length hl]
        have hg : (seeFft v L).grid = v.grid ∧ (seeFft v L).nb = v.nb := by rw [seeFft]; split_ifs <;> exact ⟨rfl, rfl⟩
        exact {
          grid := by rw [hg.1]; exact i.grid
          maxFft := by rw [hg.2]; exact i.maxFft
          same := i.same
          keys := by rw [← keys]; exact i.keys
          nodup := i.nodup
          live := i.live
          lt := fun x hx => by have := i.lt x hx; simp only; omega
          data := by rw [hg.1, hg.2]; exact i.data
          plans := by rw [hg.1]; exact i.plans
          iplans := by rw [hg.1]; exact i.iplans }
    · -- a new entry
      have lt : d.nplans < maxNplans := by omega
      have hl : v.layouts.length = d.nplans := by omega
      have take : v.layouts.take maxNplans = v.layouts := List.take_of_length_le (by omega)
      rw [take] at nmem
      have sv : seeFft v L = { v with layouts := v.layouts ++ [L] } := by rw [seeFft, if_neg nmem]
      set d1 : MData := { d with plans := Function.update d.plans d.nplans h.next, iplans := Function.update d.iplans d.nplans (h.next + 1),
                                 key := Function.update d.key d.nplans L, nplans := d.nplans + 1 } with hd1
      refine ⟨d1, h1, ?_, ?_, rfl, fun q => absurd (take ▸ q) nmem⟩
      · have e3 : retain d (search d L 0) L h.next (h.next + 1) h1 = some (d1, h1) := by
          rw [retain, if_neg (by omega), if_pos ce, if_pos (by omega), ce]
        simp only [computeFft, e1, e2, e3, Option.bind_eq_bind, Option.bind_some, Option.pure_def]
      · have pl : planList d1 = planList d ++ [h.next, h.next + 1] := by
          simp only [planList, hd1, List.range_succ, List.flatMap_append, List.flatMap_singleton, Function.update_self]
          congr 1
          apply List.flatMap_congr
          intro x hx
          have : x ≠ d.nplans := by have := List.mem_range.mp hx; omega
          simp [Function.update_of_ne this]
        have perm : (destroyOrder d1).Perm (h.next :: (h.next + 1) :: destroyOrder d) := by
          rw [destroyOrder_eq, destroyOrder_eq, pl]
          have r : restList d1 = restList d := rfl
          rw [r, List.append_assoc]
          exact List.perm_middle.trans (List.Perm.cons _ List.perm_middle)
        rw [sv]
        exact {
          grid := i.grid, maxFft := i.maxFft, same := i.same
          keys := by
            simp only [hd1, List.range_succ, List.map_append, List.map_cons, List.map_nil, Function.update_self]
            rw [List.take_of_length_le (by simp; omega)]
            congr 1
            rw [← take, ← i.keys]
            apply List.map_congr_left
            intro x hx
            have : x ≠ d.nplans := by have := List.mem_range.mp hx; omega
            simp [Function.update_of_ne this]
          nodup := perm.nodup_iff.mpr (List.nodup_cons.mpr ⟨fun q => by
            rcases List.mem_cons.mp q with q | q
            · omega
            · exact (ne _ q).1 rfl, List.nodup_cons.mpr ⟨fun q => (ne _ q).2 rfl, i.nodup⟩⟩)
          live := fun x => by
            rw [perm.mem_iff, List.mem_cons, List.mem_cons]
            by_cases p : x = h.next
            · simp [p, ap]
            · by_cases q : x = h.next + 1
              · simp [q, aq]
              · simp only [ao x p q, p, q, false_or]
                exact i.live x
          lt := fun x hx => by
            rcases List.mem_cons.mp (perm.mem_iff.mp hx) with p | p
            · simp only [hh1]; omega
            · rcases List.mem_cons.mp p with p | p
              · simp only [hh1]; omega
              · have := i.lt x p
                simp only [hh1]; omega
          data := old _ _ i.data
          plans := fun k hk => by
            by_cases p : k = d.nplans
            · subst p
              simp only [hd1, Function.update_self]
              exact ap
            · have : k < d.nplans := by simp only [hd1] at hk; omega
              simp only [hd1, Function.update_of_ne p]
              exact old _ _ (i.plans k this)
          iplans := fun k hk => by
            by_cases p : k = d.nplans
            · subst p
              simp only [hd1, Function.update_self]
              exact aq
            · have : k < d.nplans := by simp only [hd1] at hk; omega
              simp only [hd1, Function.update_of_ne p]
              exact old _ _ (i.iplans k this) }

/-- the invariant over the whole session -/
def Good (real : Bool) (v : Option Seen) (s : St) : Prop :=
  match v with
  | none => s.md = none ∧ ∀ x, s.heap.at_ x = none
  | some v => ∃ d, s.md = some d ∧ Inv real v d s.heap

theorem step_good (real : Bool) (v : Option Seen) (s : St) (g : Good real v s) (o : Op) :
    ∃ s' e, step real s o = some (s', e) ∧ Good real (see v o) s' := by
  cases o with
  | init gr nb junk =>
    cases v with
    | none =>
      obtain ⟨m, h0⟩ := g
      exact ⟨⟨some (create real gr nb junk s.heap).1, (create real gr nb junk s.heap).2⟩, none, by simp [step, m], _, rfl, create_inv real gr nb junk s.heap h0⟩
    | some v =>
      obtain ⟨d, m, i⟩ := g
      obtain ⟨h', e, h0⟩ := destroy_inv i
      exact ⟨⟨some (create real gr nb junk h').1, (create real gr nb junk h').2⟩, none, by simp [step, m, e], _, rfl, create_inv real gr nb junk h' h0⟩
  | mu =>
    cases v with
    | none =>
      obtain ⟨m, h0⟩ := g
      exact ⟨s, none, by simp [step, m], m, h0⟩
    | some v =>
      obtain ⟨d, m, i⟩ := g
      exact ⟨⟨some (setMu real d s.heap).1, (setMu real d s.heap).2⟩, none, by simp only [step, m], _, rfl, mu_inv i⟩
  | fft back L =>
    cases v with
    | none =>
      obtain ⟨m, h0⟩ := g
      exact ⟨s, none, by simp [step, m], m, h0⟩
    | some v =>
      obtain ⟨d, m, i⟩ := g
      obtain ⟨d', h', e, i', _⟩ := fft_inv i back d.fftData L
      have p : partner d d.fftData = d.fftData := by rw [partner, if_pos i.same]
      exact ⟨⟨some d', h'⟩, _, by simp [step, m, p, e]; rfl, d', rfl, i'⟩

theorem run_good (real : Bool) (l : List Op) : ∃ s, run real l = some s ∧ Good real (seen l) s := by
  induction l using List.reverseRecOn with
  | nil => exact ⟨start, rfl, rfl, fun _ => rfl⟩
  | append_singleton l o ih =>
    obtain ⟨s, e, g⟩ := ih
    obtain ⟨s', x, e', g'⟩ := step_good real _ s g o
    refine ⟨s', ?_, ?_⟩
    · rw [run, List.foldlM_append]
      change (run real l).bind _ = _
      rw [e]
      simp [e']
    · rw [seen, List.foldl_append]
      exact g'

theorem seen_nodup (l : List Op) : ∀ v, seen l = some v → v.layouts.Nodup := by
  induction l using List.reverseRecOn with
  | nil => intro v h; cases h
  | append_singleton l o ih =>
    intro v h
    rw [seen, List.foldl_append] at h
    change see (seen l) o = some v at h
    cases o with
    | init g nb junk => cases h; exact List.nodup_nil
    | mu => exact ih v h
    | fft back L =>
      obtain ⟨w, hw, e⟩ := Option.map_eq_some_iff.mp h
      have := ih w hw
      rw [← e]
      split_ifs with c
      · exact this
      · exact List.nodup_append.mpr ⟨this, List.nodup_singleton _, by
          intro a ha b hb q
          rw [List.mem_singleton.mp hb] at q
          exact c (q ▸ ha)⟩

theorem planFor_eq (real back : Bool) (g : Grid) (L : Layout) : planFor real back g L true = wanted real back g L := by
  cases g with
  | mk x y z => cases real <;> cases back <;> by_cases a : z = 1 <;> by_cases b : y = 1 <;> simp [planFor, wanted, significant, padded, Grid.rank, a, b]

/-- **C124**, the transform asked for is the transform executed: after any session whatever (any problems before, any transforms, any content of uninitialised
memory), a transform with layout `L` executes a plan that was made for the grid of the *last* `init-params`, for this layout and direction,
for one array in place, and that is still live; both arrays are the array of the current problem. -/
theorem C124_transform (real : Bool) (l : List Op) (v : Seen) (hv : seen l = some v) (back : Bool) (L : Layout) :
    ∃ s s' a, run real l = some s ∧ step real s (.fft back L) = some (s', some ⟨wanted real back v.grid L, a, a⟩) ∧
      s.heap.at_ a = some (.block (3 * (v.grid.fftSize real * min v.nb 20))) := by
  obtain ⟨s, e, g⟩ := run_good real l
  rw [hv] at g
  obtain ⟨d, m, i⟩ := g
  obtain ⟨d', h', x, _⟩ := fft_inv i back d.fftData L
  have p : partner d d.fftData = d.fftData := by rw [partner, if_pos i.same]
  exact ⟨s, ⟨some d', h'⟩, d.fftData, e, by simp [step, m, p, x, planFor_eq], i.data⟩

/-- **C124**, nothing is lost and nothing is released twice: every session runs to its end (no release of a dead handle, no execution of a dead plan, no store
beyond the cache), and afterwards the live objects are: none before the first `init-params`; later exactly two plans for each of the first 32 different
layouts used since the last `init-params` and at most six blocks of memory, however long the session was. -/
theorem C124_storage (real : Bool) (l : List Op) :
    ∃ s, run real l = some s ∧
      (seen l = none → ∀ x, s.heap.at_ x = none) ∧
      ∀ v, seen l = some v → v.layouts.Nodup ∧ ∃ plans blocks : List ℕ, (plans ++ blocks).Nodup ∧
        (∀ x, (s.heap.at_ x).isSome ↔ x ∈ plans ++ blocks) ∧
        plans.length = 2 * min 32 v.layouts.length ∧ 5 ≤ blocks.length ∧ blocks.length ≤ 6 ∧
        (∀ L ∈ v.layouts.take 32, ∀ back, ∃ x ∈ plans, s.heap.at_ x = some (.plan (wanted real back v.grid L))) := by
  obtain ⟨s, e, g⟩ := run_good real l
  refine ⟨s, e, fun h => ?_, fun v h => ?_⟩
  · rw [h] at g; exact g.2
  · rw [h] at g
    obtain ⟨d, m, i⟩ := g
    refine ⟨seen_nodup l v h, planList d, restList d, ?_, ?_, ?_, ?_, ?_, ?_⟩
    · rw [← destroyOrder_eq]; exact i.nodup
    · rw [← destroyOrder_eq]; exact i.live
    · have := i.nplans
      simp only [planList, List.length_flatMap, List.length_cons, List.length_nil, List.map_const', List.sum_replicate, List.length_range, smul_eq_mul]
      rw [this]
      simp only [maxNplans]
      omega
    · cases hm : d.muInv <;> simp [restList, hm, i.same]
    · cases hm : d.muInv <;> simp [restList, hm, i.same]
    · intro L hL back
      have k := i.keys
      rw [maxNplans] at k
      rw [← k] at hL
      obtain ⟨j, hj, q⟩ := List.mem_map.mp hL
      have hj' := List.mem_range.mp hj
      cases back
      · exact ⟨d.iplans j, List.mem_flatMap.mpr ⟨j, hj, by simp⟩, by rw [i.iplans j hj', q, planFor_eq]⟩
      · exact ⟨d.plans j, List.mem_flatMap.mpr ⟨j, hj, by simp⟩, by rw [i.plans j hj', q, planFor_eq]⟩

/-- **C124**, plans are made once: a transform with one of the first 32 different layouts makes no plan. -/
theorem C124_reuse (real : Bool) (l : List Op) (v : Seen) (hv : seen l = some v) (back : Bool) (L : Layout) (hL : L ∈ v.layouts.take 32) :
    ∃ s s' e, run real l = some s ∧ step real s (.fft back L) = some (s', some e) ∧ s'.heap.next = s.heap.next := by
  obtain ⟨s, e, g⟩ := run_good real l
  rw [hv] at g
  obtain ⟨d, m, i⟩ := g
  obtain ⟨d', h', x, _, _, n⟩ := fft_inv i back d.fftData L
  have p : partner d d.fftData = d.fftData := by rw [partner, if_pos i.same]
  exact ⟨s, ⟨some d', h'⟩, _, e, by simp [step, m, p, x]; rfl, n hL⟩

theorem extent_eq (P b : ℕ) (hP : 0 < P) (hb : 0 < b) : extent P ⟨3 * b, 3 * b, 1⟩ = P * (3 * b) := by
  obtain ⟨P, rfl⟩ : ∃ q, P = q + 1 := ⟨P - 1, by omega⟩
  simp only [extent, Nat.add_sub_cancel, Nat.mul_one, Nat.succ_mul]
  omega

theorem fftSize_real (g : Grid) (hx : 0 < g.nx) (hy : 0 < g.ny) (hz : 0 < g.nz) :
    g.fftSize true = ((significant g).dropLast ++ [2 * ((significant g).getLastD 0 / 2 + 1)]).prod := by
  cases g with
  | mk x y z =>
    simp only at hx hy hz
    by_cases a : z = 1 <;> by_cases b : y = 1 <;> simp only [Grid.fftSize, Grid.otherDims, Grid.lastDim, significant, a, b, if_true, if_false, ne_eq,
      not_true_eq_false, not_false_eq_true, Nat.mul_one, List.dropLast, List.getLastD, List.prod_append, List.prod_cons, List.prod_nil]
    · simp [Nat.div_self hx]
    · simp [Nat.mul_div_cancel _ (Nat.pos_of_ne_zero (by omega : y ≠ 0))]
    · simp [Nat.mul_div_cancel _ hz]
    · rw [Nat.mul_div_cancel _ hz]
      simp [Nat.mul_assoc]

/-- **C124**, the array is large enough: a transform of `b` vector fields, `b` at most the number of bands solved for at a time and at most 20, with the
layout all callers use (`howmany = stride = 3 b`, `dist = 1`) reaches no element outside the array it is executed on, on either side of the transform. -/
theorem C124_fits (real back : Bool) (l : List Op) (v : Seen) (hv : seen l = some v) (hx : 0 < v.grid.nx) (hy : 0 < v.grid.ny) (hz : 0 < v.grid.nz)
    (b : ℕ) (hb : 0 < b) (hnb : b ≤ v.nb) (h20 : b ≤ 20) :
    ∃ s s' e n, run real l = some s ∧ step real s (.fft back ⟨3 * b, 3 * b, 1⟩) = some (s', some e) ∧ s.heap.at_ e.arrayOut = some (.block n) ∧
      e.arrayIn = e.arrayOut ∧ reach e.spec ≤ n := by
  obtain ⟨s, s', a, h1, h2, h3⟩ := C124_transform real l v hv back ⟨3 * b, 3 * b, 1⟩
  refine ⟨s, s', _, _, h1, h2, h3, rfl, ?_⟩
  have hm : 3 * b ≤ 3 * min v.nb 20 := by have := le_min hnb h20; omega
  cases real with
  | false =>
    have e : reach (wanted false back v.grid ⟨3 * b, 3 * b, 1⟩) = extent (v.grid.nx * v.grid.ny * v.grid.nz) ⟨3 * b, 3 * b, 1⟩ := by
      cases back <;> simp [reach, wanted, Nat.mul_assoc]
    rw [e, extent_eq _ _ (by positivity) hb]
    calc _ ≤ v.grid.nx * v.grid.ny * v.grid.nz * (3 * min v.nb 20) := Nat.mul_le_mul_left _ hm
      _ = _ := by simp only [Grid.fftSize, Bool.false_eq_true, if_false]; ring
  | true =>
    have f := fftSize_real v.grid hx hy hz
    have e : reach (wanted true back v.grid ⟨3 * b, 3 * b, 1⟩) = v.grid.fftSize true * (3 * b) := by
      have q : ((significant v.grid).dropLast.prod * ((significant v.grid).getLastD 0 / 2 + 1)) * 2 = v.grid.fftSize true := by
        rw [f]; simp [List.prod_append]; ring
      have pos : 0 < (significant v.grid).dropLast.prod * ((significant v.grid).getLastD 0 / 2 + 1) := by
        refine Nat.mul_pos ?_ (by omega)
        by_cases a : v.grid.nz = 1 <;> by_cases b : v.grid.ny = 1 <;> simp [significant, a, b, hx, hy]
      have gl : (significant v.grid).getLast?.getD 1 = (significant v.grid).getLastD 0 := by
        by_cases a : v.grid.nz = 1 <;> by_cases b : v.grid.ny = 1 <;> simp [significant, a, b]
      have r : reach (wanted true back v.grid ⟨3 * b, 3 * b, 1⟩) = max (extent (v.grid.fftSize true) ⟨3 * b, 3 * b, 1⟩)
          (2 * extent ((significant v.grid).dropLast.prod * ((significant v.grid).getLastD 0 / 2 + 1)) ⟨3 * b, 3 * b, 1⟩) := by
        cases back <;> simp only [reach, wanted, gl, f]
      rw [r, extent_eq _ _ (by omega) hb, extent_eq _ _ pos hb, ← q]
      rw [max_eq_left (by rw [Nat.mul_right_comm, Nat.mul_comm]; exact le_of_eq (by ring))]
    rw [e]
    calc _ ≤ v.grid.fftSize true * (3 * min v.nb 20) := Nat.mul_le_mul_left _ hm
      _ = _ := by ring

/-- a session: a plane problem, both transforms of eight bands, `mu` set, a larger problem solved 20 bands at a time, transforms of 20 and of the 5 remaining bands and of
a scalar field. -/
def demo : List Op :=
  [.init ⟨32, 32, 1⟩ 8 (fun i => (i, i, ⟨24, 24, 1⟩)), .fft false ⟨24, 24, 1⟩, .fft true ⟨24, 24, 1⟩, .mu,
   .init ⟨16, 16, 16⟩ 25 (fun _ => (7, 7, ⟨60, 60, 1⟩)), .fft false ⟨60, 60, 1⟩, .fft true ⟨60, 60, 1⟩, .fft false ⟨15, 15, 1⟩, .fft false ⟨1, 1, 1⟩,
   .fft true ⟨15, 15, 1⟩]

/-- the hypotheses of the theorems above hold for this session -/
example : seen demo = some ⟨⟨16, 16, 16⟩, 25, [⟨60, 60, 1⟩, ⟨15, 15, 1⟩, ⟨1, 1, 1⟩]⟩ := by simp [seen, see, demo]

example (real : Bool) : ∃ s s' e n, run real demo = some s ∧ step real s (.fft true ⟨3 * 20, 3 * 20, 1⟩) = some (s', some e) ∧
    s.heap.at_ e.arrayOut = some (.block n) ∧ e.arrayIn = e.arrayOut ∧ reach e.spec ≤ n :=
  C124_fits real true demo ⟨⟨16, 16, 16⟩, 25, [⟨60, 60, 1⟩, ⟨15, 15, 1⟩, ⟨1, 1, 1⟩]⟩ (by simp [seen, see, demo]) (by decide) (by decide) (by decide)
    20 (by decide) (by decide) (by decide)

end Mpb.Plans

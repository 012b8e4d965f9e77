import Verif.Workspace.Model
import Verif.Solver.BlockProps

/-! # C45: the work space always matches the current problem -/

namespace Mpb.Workspace

theorem destroy_head (m : Mat) (s : St) (b : ℕ × ℕ) (L : List (ℕ × ℕ)) (h : s.live = b :: L) (hb : b.1 = m.data) :
    destroy m s = some { s with live := L } := by
  have e : (b.1 == m.data) = true := by simp [hb]
  unfold destroy
  rw [h]
  simp [e]

theorem destroyW (W : ℕ → Mat) (l : List ℕ) : ∀ (s : St) (A B : List (ℕ × ℕ)), s.live = A ++ B → A.map Prod.fst = l.map (fun i => (W i).data) →
    l.foldlM (fun a i => destroy (W i) a) s = some { s with live := B } := by
  induction l with
  | nil =>
    intro s A B h hA
    have : A = [] := by simpa using hA
    subst this
    simp only [List.nil_append] at h
    simp only [List.foldlM_nil, ← h]
    rfl
  | cons i l ih =>
    intro s A B h hA
    cases A with
    | nil => simp at hA
    | cons a A =>
      simp only [List.map_cons, List.cons.injEq] at hA
      rw [List.foldlM_cons, destroy_head (W i) s a (A ++ B) (by rw [h]; rfl) hA.1]
      exact ih { s with live := A ++ B } A B rfl hA.2

theorem split_map {l : List (ℕ × ℕ)} {x y : List ℕ} (h : l.map Prod.fst = x ++ y) :
    ∃ a b, l = a ++ b ∧ a.map Prod.fst = x ∧ b.map Prod.fst = y := by
  obtain ⟨a, b, h1, h2, h3⟩ := List.map_eq_append_iff.1 h
  exact ⟨a, b, h1, h2, h3⟩

theorem one_of_map {l : List (ℕ × ℕ)} {a : ℕ} (h : l.map Prod.fst = [a]) : ∃ y, l = [y] ∧ y.1 = a := by
  obtain ⟨y, h1, h2⟩ := List.map_eq_singleton_iff.1 h
  exact ⟨y, h1, h2⟩

theorem destroyOwn_eq (m h : Mat) (s : St) (A B : List (ℕ × ℕ)) (hl : s.live = A ++ B)
    (hA : A.map Prod.fst = if m.data = h.data then [] else [m.data]) : destroyOwn m h s = some { s with live := B } := by
  unfold destroyOwn
  by_cases hb : m.data = h.data
  · rw [if_pos hb] at hA
    have : A = [] := by simpa using hA
    subst this
    rw [if_neg (by simpa using hb)]
    simp only [List.nil_append] at hl
    rw [← hl]
  · rw [if_neg hb] at hA
    obtain ⟨y, rfl, hy⟩ := one_of_map hA
    rw [if_pos hb]
    exact destroy_head m s y B hl hy

theorem cleanup_eq (s : St) (h : s.live.map Prod.fst = s.owned) : cleanup s = some { s with live := [] } := by
  unfold St.owned at h
  obtain ⟨a3, b3, e3, f3, g3⟩ := split_map h
  obtain ⟨a2, b2, e2, f2, g2⟩ := split_map f3
  obtain ⟨a1, b1, e1, f1, g1⟩ := split_map f2
  obtain ⟨x, rfl, hx⟩ := one_of_map f1
  unfold cleanup
  rw [destroy_head s.H s x (b1 ++ b2 ++ b3) (by rw [e3, e2, e1]; simp) hx]
  simp only [Option.bind_eq_bind, Option.bind_some]
  rw [destroyW s.W (List.range s.nworkAlloc) _ b1 (b2 ++ b3) (by simp) g1]
  simp only [Option.bind_some]
  rw [destroyOwn_eq s.Hblock s.H _ b2 b3 rfl g2]
  simp only [Option.bind_some]
  rw [destroyOwn_eq s.muinvH s.H _ b3 [] (by simp) g3]

theorem createW_loop (N p k : ℕ) (hk : k ≤ maxNwork) (s : St) :
    (List.range k).foldlM (createW N p) s = some { s with
      live := s.live ++ (List.range k).map (fun i => (s.next + i, N * 2 * p)), next := s.next + k,
      W := fun i => if i < k then ⟨N, p, p, s.next + i⟩ else s.W i } := by
  induction k with
  | zero => simp
  | succ k ih =>
    rw [List.range_succ, List.foldlM_append, ih (by omega)]
    have hk' : k < maxNwork := by omega
    simp only [Option.bind_eq_bind, Option.bind_some, List.foldlM_cons, List.foldlM_nil, createW, if_pos hk', create]
    congr 1
    simp only [List.map_append, List.map_cons, List.map_nil, List.append_assoc, Nat.add_assoc]
    congr 1
    funext i
    by_cases h : i = k
    · subst h; simp
    · rw [Function.update_of_ne h]
      by_cases h2 : i < k
      · rw [if_pos h2, if_pos (by omega)]
      · rw [if_neg h2, if_neg (by omega)]

theorem nodup_ids (n k : ℕ) : ((List.range k).map (fun i => n + i)).Nodup := by
  refine List.Nodup.map ?_ List.nodup_range
  intro a b h
  simpa using h

theorem owned_eq (t : St) (n k : ℕ) (h1 : t.H.data = n) (h2 : t.nworkAlloc = k) (h3 : ∀ i, i < k → (t.W i).data = n + 1 + i) :
    t.owned = [n] ++ (List.range k).map (fun i => n + 1 + i) ++ (if t.Hblock.data = n then [] else [t.Hblock.data]) ++
      (if t.muinvH.data = n then [] else [t.muinvH.data]) := by
  unfold St.owned
  rw [h1, h2]
  congr 3
  refine List.map_congr_left fun i hi => h3 i (List.mem_range.1 hi)

theorem nodup_blocks (n k a b : ℕ) : 
    ([n] ++ (List.range k).map (fun i => n + 1 + i) ++ (if n + 1 + k + a = n then [] else [n + 1 + k + a]) ++
      (if n + 1 + k + a + 1 + b = n then [] else [n + 1 + k + a + 1 + b])).Nodup := by
  rw [if_neg (by omega), if_neg (by omega)]
  simp only [List.nodup_append, nodup_ids]
  simp
  refine ⟨⟨fun x _ => by omega, by omega, fun x _ => by omega⟩, by omega, ?_⟩
  rintro x (⟨y, h1, h2⟩ | h) <;> omega

/-- The state after `allocate` on an empty heap. -/
theorem allocate_fits (q : Input) (s : St) (hl : s.live = []) (hmd : s.mdata = some ⟨q.nx, q.ny, q.nz, q.bs, q.mu⟩)
    (hbs : 1 ≤ q.bs ∧ q.bs ≤ q.nb) (hw : q.works q.mu ≤ maxNwork) :
    ∃ t, allocate q q.bs (min q.nwork maxNwork) s = some t ∧ Fits q t := by
  obtain ⟨k, hk⟩ : ∃ k, k = q.works q.mu := ⟨_, rfl⟩
  obtain ⟨N, hN⟩ : ∃ N, N = q.nx * q.ny * q.nz := ⟨_, rfl⟩
  unfold allocate
  simp only [create, Option.bind_eq_bind]
  have hw' : min q.nwork maxNwork + q.mu.toNat = q.works q.mu := rfl
  rw [hw', createW_loop _ _ _ hw]
  simp only [Option.bind_some, Option.some.injEq, exists_eq_left', hl, List.nil_append, ← hk, ← hN]
  rw [← hk] at hw
  have hW : ∀ i, i < k → ((if i < k then ⟨N, q.bs, q.bs, s.next + 1 + i⟩ else s.W i : Mat)).data = s.next + 1 + i := by
    intro i hi; rw [if_pos hi]
  by_cases hb : q.bs < q.nb
  · by_cases hm : q.mu = true
    · simp only [if_pos hb, if_pos (show q.mu = true ∧ q.bs < q.nb from ⟨hm, hb⟩)]
      refine ⟨hmd, hbs, ⟨hN, rfl, rfl, ?_⟩, hk, hw, ?_, ⟨hN, rfl, rfl, ?_⟩, ?_, ⟨hN, rfl, rfl, ?_⟩, ?_, ?_, ?_⟩
      · simp [← hN]
      · intro i hi
        simp only at hi
        simp only [if_pos hi]
        refine ⟨hN, rfl, rfl, ?_⟩
        simp [← hN, hi]
      · simp [← hN]
      · simp only [hb, iff_true]; omega
      · simp [← hN]
      · simp only [hb, hm, and_self, iff_true]; omega
      · rw [owned_eq _ s.next k rfl rfl hW]
        exact nodup_blocks s.next k 0 0
      · rw [owned_eq _ s.next k rfl rfl hW, if_neg (by simp only; omega), if_neg (by simp only; omega)]
        simp [Function.comp_def]
    · simp only [if_pos hb, if_neg (show ¬ (q.mu = true ∧ q.bs < q.nb) from fun h => hm h.1)]
      refine ⟨hmd, hbs, ⟨hN, rfl, rfl, ?_⟩, hk, hw, ?_, ⟨hN, rfl, rfl, ?_⟩, ?_, ⟨hN, rfl, rfl, ?_⟩, ?_, ?_, ?_⟩
      · simp [← hN]
      · intro i hi
        simp only at hi
        simp only [if_pos hi]
        refine ⟨hN, rfl, rfl, ?_⟩
        simp [← hN, hi]
      · simp [← hN]
      · simp only [hb, iff_true]; omega
      · simp [← hN]
      · simp [hm]
      · rw [owned_eq _ s.next k rfl rfl hW]
        simp only [if_true, List.append_nil]
        exact (nodup_blocks s.next k 0 0).sublist (List.sublist_append_left _ _)
      · rw [owned_eq _ s.next k rfl rfl hW, if_neg (by simp only; omega), if_pos rfl]
        simp [Function.comp_def]
  · simp only [if_neg hb, if_neg (show ¬ (q.mu = true ∧ q.bs < q.nb) from fun h => hb h.2)]
    have hbe : q.bs = q.nb := by omega
    refine ⟨hmd, hbs, ⟨hN, rfl, rfl, ?_⟩, hk, hw, ?_, ⟨hN, hbe.symm, hbe.symm, ?_⟩, ?_, ⟨hN, rfl, rfl, ?_⟩, ?_, ?_, ?_⟩
    · simp [← hN]
    · intro i hi
      simp only at hi
      simp only [if_pos hi]
      refine ⟨hN, rfl, rfl, ?_⟩
      simp [← hN, hi]
    · simp [← hN, hbe]
    · simp [hb]
    · simp [← hN]
    · simp [hb]
    · rw [owned_eq _ s.next k rfl rfl hW]
      simp only [if_true, List.append_nil]
      exact ((nodup_blocks s.next k 0 0).sublist (List.sublist_append_left _ _)).sublist (List.sublist_append_left _ _)
    · rw [owned_eq _ s.next k rfl rfl hW, if_pos rfl]
      simp [Function.comp_def]

/-- Inputs with at least one band and a number of work matrices that fits the array. -/
def Valid (q : Input) : Prop := 1 ≤ q.nb ∧ q.works q.mu ≤ maxNwork

theorem bs_of (q : Input) (h : 1 ≤ q.nb) : ∃ b, Solver.blockSize q.ebs q.nb = some b ∧ b.toNat = q.bs ∧ 1 ≤ q.bs ∧ q.bs ≤ q.nb := by
  obtain ⟨b, h1, h2, h3, -⟩ := Solver.C20_block_size q.ebs q.nb (by omega)
  refine ⟨b, h1, ?_, ?_, ?_⟩ <;> simp only [Input.bs, h1, Option.getD_some] <;> omega

/-- The first call. -/
theorem first_call (q : Input) (hq : Valid q) : ∃ t, initParams {} q = some t ∧ Fits q t := by
  obtain ⟨b, h1, h2, h3⟩ := bs_of q hq.1
  unfold initParams
  simp only [h1, Option.bind_eq_bind, Option.bind_some, prepare, h2, Bool.false_eq_true, if_false]
  exact allocate_fits q _ rfl rfl h3 hq.2

/-- Same sizes: what the test for reallocation compares. -/
def SameSize (q q' : Input) : Prop := q.nx = q'.nx ∧ q.ny = q'.ny ∧ q.nz = q'.nz ∧ q.nb = q'.nb ∧ q.bs = q'.bs

/-- A later call: everything is reallocated for the new problem, or it has the same sizes and everything is kept. -/
theorem later_call (q q' : Input) (s : St) (muW muH : Bool) (hs : FitsFor muW muH q s) (hq : Valid q') :
    ∃ t, initParams s q' = some t ∧
      (Fits q' t ∨ (SameSize q q' ∧ q'.nwork + q.mu.toNat = q.works muW ∧ FitsFor q.mu muH q' t)) := by
  obtain ⟨b, h1, h2, h3⟩ := bs_of q' hq.1
  unfold initParams
  simp only [h1, Option.bind_eq_bind, Option.bind_some, prepare, h2, hs.mdata]
  by_cases ho : haveOld q' q'.bs ⟨q.nx, q.ny, q.nz, q.bs, q.mu⟩ s = true
  · rw [if_pos ho]
    simp only [haveOld, decide_eq_true_eq] at ho
    obtain ⟨o1, o2, o3, o4, o5, o6⟩ := ho
    have e4 : q.bs = q'.bs := by rw [o4, hs.Hblock.2.2.1]
    have e5 : q.nb = q'.nb := by rw [o5, hs.H.2.1]
    have hN : q.nx * q.ny * q.nz = q'.nx * q'.ny * q'.nz := by rw [o1, o2, o3]
    have im : ∀ m p, IsMat q s m p → IsMat q' { s with mdata := some ⟨q'.nx, q'.ny, q'.nz, q'.bs, q'.mu⟩ } m p := by
      rintro m p ⟨a1, a2, a3, a4⟩
      exact ⟨by rw [a1, hN], a2, a3, by rw [← hN]; exact a4⟩
    simp only [Option.bind_some, if_true, Option.some.injEq, exists_eq_left']
    right
    refine ⟨⟨o1.symm, o2.symm, o3.symm, e5, e4⟩, by rw [o6, hs.count], ?_⟩
    have hf := hs.fits
    refine ⟨rfl, h3, im _ _ (e5 ▸ hs.H), ?_, hs.fits, fun i hi => im _ _ (e4 ▸ hs.W i hi), im _ _ (e4 ▸ hs.Hblock), ?_, im _ _ (e5 ▸ hs.muinvH), ?_, hs.nodup, hs.noleak⟩
    · show s.nworkAlloc = _
      unfold Input.works
      rw [min_eq_left (by omega)]
      exact o6.symm
    · rw [← e4, ← e5]; exact hs.Hblock_own
    · rw [← e4, ← e5]; exact hs.muinvH_own
  · rw [if_neg ho, cleanup_eq s hs.noleak]
    simp only [Option.map_some, Option.bind_some, Bool.false_eq_true, if_false]
    obtain ⟨t, e, f⟩ := allocate_fits q' { s with live := [], mdata := some ⟨q'.nx, q'.ny, q'.nz, q'.bs, q'.mu⟩ } rfl rfl h3 hq.2
    exact ⟨t, e, Or.inl f⟩

theorem run_append (s : St) (l : List Input) (q : Input) : run s (l ++ [q]) = (run s l).bind fun t => initParams t q := by
  unfold run
  rw [List.foldlM_append]
  simp [Option.bind_eq_bind]

/-- **C45** (partial).  After every history of init-params calls (at least one band each, number of work matrices within the array) no block has been freed twice or leaked, and
all matrices have the sizes of the current problem.  Only the number of work matrices can be off by the one matrix needed for a permeability, and the matrix for the product
with the inverse permeability can be missing or superfluous. -/
theorem C45_sizes_partial (l : List Input) (q : Input) (h : ∀ x ∈ l ++ [q], Valid x) :
    ∃ t muW muH, run {} (l ++ [q]) = some t ∧ FitsFor muW muH q t := by
  induction l using List.reverseRecOn generalizing q with
  | nil =>
    obtain ⟨t, e, f⟩ := first_call q (h q (by simp))
    refine ⟨t, q.mu, q.mu, ?_, f⟩
    simpa [run] using e
  | append_singleton l a ih =>
    obtain ⟨t, muW, muH, e, f⟩ := ih a (fun x hx => h x (by simp only [List.mem_append] at hx ⊢; tauto))
    rw [run_append, e]
    obtain ⟨t', e', f'⟩ := later_call a q t muW muH f (h q (by simp))
    rcases f' with f' | ⟨-, -, f'⟩
    · exact ⟨t', _, _, e', f'⟩
    · exact ⟨t', _, _, e', f'⟩

/-- **C45** (partial).  If all problems of the history have a permeability, or none has, the work space is exactly what the current problem needs. -/
theorem C45_same_mu_partial (l : List Input) (q : Input) (h : ∀ x ∈ l ++ [q], Valid x) (hmu : ∀ x ∈ l, x.mu = q.mu) :
    ∃ t, run {} (l ++ [q]) = some t ∧ Fits q t := by
  induction l using List.reverseRecOn generalizing q with
  | nil =>
    obtain ⟨t, e, f⟩ := first_call q (h q (by simp))
    refine ⟨t, ?_, f⟩
    simpa [run] using e
  | append_singleton l a ih =>
    have ha : a.mu = q.mu := hmu a (by simp)
    obtain ⟨t, e, f⟩ := ih a (fun x hx => h x (by simp only [List.mem_append] at hx ⊢; tauto))
      (fun x hx => (hmu x (by simp [hx])).trans ha.symm)
    rw [run_append, e]
    obtain ⟨t', e', f'⟩ := later_call a q t _ _ f (h q (by simp))
    rcases f' with f' | ⟨-, -, f'⟩
    · exact ⟨t', e', f'⟩
    · rw [ha] at f'
      exact ⟨t', e', f'⟩

/-- **C45** (partial).  After any history, a call with another grid, number of bands or block size than the call before gets exactly the work space it needs,
whatever the materials. -/
theorem C45_new_size_partial (l : List Input) (q q' : Input) (h : ∀ x ∈ l ++ [q] ++ [q'], Valid x) (hne : ¬ SameSize q q') :
    ∃ t, run {} (l ++ [q] ++ [q']) = some t ∧ Fits q' t := by
  obtain ⟨t, muW, muH, e, f⟩ := C45_sizes_partial l q (fun x hx => h x (by simp only [List.mem_append] at hx ⊢; tauto))
  rw [run_append, e]
  obtain ⟨t', e', f'⟩ := later_call q q' t muW muH f (h q' (by simp))
  rcases f' with f' | ⟨g, -, -⟩
  · exact ⟨t', e', f'⟩
  · exact absurd g hne

/-- A 2D problem: 32 x 32 grid, 8 bands, blocks of about 3 bands, 3 work matrices. -/
def demo (mu : Bool) : Input := ⟨32, 32, 1, 8, -3, 3, mu⟩

example : Valid (demo false) ∧ Valid (demo true) ∧ (demo true).bs = 3 := by
  unfold Valid; decide +kernel

example : ¬ SameSize (demo false) { demo true with nb := 10 } := by unfold SameSize; decide +kernel

/-- **C45, refuted.**  A second call that only differs in that the materials now have a permeability keeps the old work space, for every problem (with up to 9 work matrices): the work
matrix it needs in addition is missing; with more than one block there is also no matrix for the inverse permeability times the bands, so that `deflation.BY = H`. -/
theorem C45_mu_refuted (q : Input) (hmu : q.mu = false) (hnb : 1 ≤ q.nb) (hw : q.nwork < maxNwork) :
    ∃ t, run {} [q, { q with mu := true }] = some t ∧ t.mdata = some ⟨q.nx, q.ny, q.nz, q.bs, true⟩ ∧ t.nworkAlloc = q.nwork ∧
      t.muinvH.data = t.H.data ∧ ¬ Fits { q with mu := true } t := by
  have hv : Valid q := ⟨hnb, by simp only [Input.works, hmu, Bool.toNat_false]; omega⟩
  have hv' : Valid { q with mu := true } := ⟨hnb, by simp only [Input.works, Bool.toNat_true]; omega⟩
  obtain ⟨t, e, f⟩ := first_call q hv
  obtain ⟨b, h1, h2, h3⟩ := bs_of q hnb
  have hc : t.nworkAlloc = q.nwork := by
    rw [f.count, hmu, Input.works, Bool.toNat_false, min_eq_left (by omega)]; rfl
  have hH : t.muinvH.data = t.H.data := by
    by_contra hne
    have := f.muinvH_own.1 hne
    rw [hmu] at this
    simp at this
  have ho : haveOld { q with mu := true } q.bs ⟨q.nx, q.ny, q.nz, q.bs, q.mu⟩ t = true := by
    simp only [haveOld, decide_eq_true_eq, hmu, Bool.toNat_false]
    exact ⟨trivial, trivial, trivial, f.Hblock.2.2.1.symm, f.H.2.1.symm, by rw [hc]; rfl⟩
  refine ⟨{ t with mdata := some ⟨q.nx, q.ny, q.nz, q.bs, true⟩ }, ?_, rfl, hc, hH, ?_⟩
  · show (initParams {} q).bind (fun t => (initParams t _).bind some) = _
    rw [e]
    simp only [Option.bind_some]
    have : initParams t { q with mu := true } = some { t with mdata := some ⟨q.nx, q.ny, q.nz, q.bs, true⟩ } := by
      unfold initParams
      simp only [h1, Option.bind_eq_bind, Option.bind_some, prepare, h2, f.mdata, if_pos ho, if_true]
    rw [this]
    rfl
  · intro hf
    have := hf.count
    simp only [Input.works, Bool.toNat_true] at this
    omega

/-- **C45, refuted.**  With a permeability and eigensolver-nwork = 10 or more (it is reduced to 10 first), the eleventh work matrix is stored after the end of the array. -/
theorem C45_overflow_refuted (q : Input) (hmu : q.mu = true) (hw : maxNwork ≤ q.nwork) : run {} [q] = none := by
  have key : ∀ s : St, ∀ N p, (List.range (maxNwork + 1)).foldlM (createW N p) s = none := by
    intro s N p
    rw [List.range_succ, List.foldlM_append, createW_loop N p maxNwork (by omega)]
    simp [createW]
  have e : min q.nwork maxNwork + q.mu.toNat = maxNwork + 1 := by
    rw [hmu, Bool.toNat_true]; omega
  show (initParams {} q).bind some = none
  unfold initParams
  cases h : Solver.blockSize q.ebs q.nb with
  | none => rfl
  | some b =>
    simp only [Option.bind_eq_bind, Option.bind_some, prepare, Bool.false_eq_true, if_false, allocate, create, e, key, Option.bind_none]

example : (demo true).mu = true ∧ maxNwork ≤ ({ demo true with nwork := 10 } : Input).nwork := by decide +kernel

end Mpb.Workspace

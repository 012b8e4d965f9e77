import Verif.IO.Model

/-!
# Lemmas for the file layer
-/

namespace Mpb.IO

theorem range_mul_flat (n m : ℕ) : (List.range n).flatMap (fun i => (List.range m).map fun j => i * m + j) = List.range (n * m) := by
  induction n with
  | zero => simp
  | succ n ih =>
    rw [List.range_succ, List.flatMap_append, ih, Nat.succ_mul, List.range_add]
    simp

theorem map_rm_boxIdx : ∀ d : List ℕ, (boxIdx d).map (rm d) = List.range d.prod := by
  intro d
  induction d with
  | nil => rfl
  | cons d ds ih =>
    rw [List.prod_cons, ← range_mul_flat, boxIdx, List.map_flatMap]
    congr 1
    funext i
    rw [List.map_map, ← ih, List.map_map]
    rfl

theorem nodup_boxIdx (d : List ℕ) : (boxIdx d).Nodup := List.Nodup.of_map (rm d) (by rw [map_rm_boxIdx]; exact List.nodup_range)

theorem length_of_mem_boxIdx : ∀ {d idx : List ℕ}, idx ∈ boxIdx d → idx.length = d.length := by
  intro d
  induction d with
  | nil => intro idx h; simp [boxIdx] at h; simp [h]
  | cons d ds ih =>
    intro idx h
    simp only [boxIdx, List.mem_flatMap, List.mem_range, List.mem_map] at h
    obtain ⟨i, _, is, his, rfl⟩ := h
    simp [ih his]

theorem addIdx_inj : ∀ {s a b : List ℕ}, a.length = s.length → b.length = s.length → addIdx s a = addIdx s b → a = b := by
  intro s
  induction s with
  | nil => intro a b ha hb _; simp at ha hb; rw [ha, hb]
  | cons x s ih =>
    intro a b ha hb h
    cases a with
    | nil => simp at ha
    | cons y a =>
      cases b with
      | nil => simp at hb
      | cons z b =>
        simp only [addIdx, List.zipWith_cons_cons, List.cons.injEq] at h
        simp only [List.length_cons, Nat.succ.injEq] at ha hb
        rw [ih ha hb h.2, show y = z by omega]

theorem prod_mapLast (s : ℕ) : ∀ {d : List ℕ}, d ≠ [] → (mapLast (· * s) d).prod = d.prod * s := by
  intro d
  induction d with
  | nil => intro h; exact absurd rfl h
  | cons a d ih =>
    intro _
    cases d with
    | nil => simp [mapLast]
    | cons b d => rw [mapLast, List.prod_cons, ih (by simp), List.prod_cons (a := a), mul_assoc]

theorem rm_strided (s : ℕ) : ∀ {d idx : List ℕ}, d ≠ [] → idx.length = d.length →
    rm (mapLast (· * s) d) (mulIdx idx (mapLast (fun _ => s) (d.map fun _ => 1))) = rm d idx * s := by
  intro d
  induction d with
  | nil => intro idx h; exact absurd rfl h
  | cons a d ih =>
    intro idx _ hl
    cases idx with
    | nil => simp at hl
    | cons i idx =>
      cases d with
      | nil => simp [mapLast, mulIdx, rm]
      | cons b d =>
        simp only [List.length_cons, Nat.succ.injEq] at hl
        have h := ih (idx := idx) (by simp) (by simpa using hl)
        simp only [mapLast, mulIdx, List.map_cons, List.zipWith_cons_cons, rm, mul_one] at h ⊢
        rw [h]
        rw [prod_mapLast s (by simp)]
        ring

/-- A loop of assignments to different keys. -/
theorem foldl_upd {κ ι α : Type*} [DecidableEq κ] (key : ι → κ) (val : ι → α) : ∀ (l : List ι) (f : κ → α), (l.map key).Nodup →
    (∀ t ∈ l, l.foldl (fun f t => Function.update f (key t) (val t)) f (key t) = val t) ∧
    (∀ x, x ∉ l.map key → l.foldl (fun f t => Function.update f (key t) (val t)) f x = f x) := by
  intro l
  induction l with
  | nil => intro f _; simp
  | cons t l ih =>
    intro f hp
    rw [List.map_cons, List.nodup_cons] at hp
    obtain ⟨h1, h2⟩ := ih (Function.update f (key t) (val t)) hp.2
    simp only [List.foldl_cons]
    refine ⟨fun t' ht' => ?_, fun a ha => ?_⟩
    · rcases List.mem_cons.1 ht' with rfl | hm
      · rw [h2 _ hp.1, Function.update_self]
      · exact h1 t' hm
    · rw [List.map_cons, List.mem_cons, not_or] at ha
      rw [h2 a ha.2, Function.update_of_ne ha.1]

theorem h5write_spec {fstart count memDims memStr : List ℕ} {mem : ℕ → ℝ} {file : Dataset} (hl : fstart.length = count.length) :
    (∀ idx ∈ boxIdx count, h5write fstart count memDims memStr mem file (addIdx fstart idx) = mem (rm memDims (mulIdx idx memStr))) ∧
    (∀ x, (∀ idx ∈ boxIdx count, x ≠ addIdx fstart idx) → h5write fstart count memDims memStr mem file x = file x) := by
  obtain ⟨h1, h2⟩ := foldl_upd (addIdx fstart) (fun idx => mem (rm memDims (mulIdx idx memStr))) (boxIdx count) file
    ((nodup_boxIdx count).map_on fun a ha b hb e => addIdx_inj (by rw [length_of_mem_boxIdx ha, hl]) (by rw [length_of_mem_boxIdx hb, hl]) e)
  refine ⟨h1, fun x hx => h2 x fun hm => ?_⟩
  obtain ⟨idx, hi, e⟩ := List.mem_map.1 hm
  exact hx idx hi e.symm

theorem rm_inj {d a b : List ℕ} (ha : a ∈ boxIdx d) (hb : b ∈ boxIdx d) (h : rm d a = rm d b) : a = b :=
  List.inj_on_of_nodup_map (by rw [map_rm_boxIdx]; exact List.nodup_range) ha hb h

theorem h5read_spec {fstart count : List ℕ} {file : Dataset} {mem : ℕ → ℝ} {s : ℕ} (hs : 0 < s) (hc : count ≠ []) :
    (∀ idx ∈ boxIdx count, h5read fstart count (mapLast (· * s) count) (mapLast (fun _ => s) (count.map fun _ => 1)) file mem (rm count idx * s) =
      file (addIdx fstart idx)) ∧
    (∀ a, (∀ idx ∈ boxIdx count, a ≠ rm count idx * s) →
      h5read fstart count (mapLast (· * s) count) (mapLast (fun _ => s) (count.map fun _ => 1)) file mem a = mem a) := by
  have e : ∀ idx ∈ boxIdx count, rm (mapLast (· * s) count) (mulIdx idx (mapLast (fun _ => s) (count.map fun _ => 1))) = rm count idx * s :=
    fun idx hi => rm_strided s hc (length_of_mem_boxIdx hi)
  obtain ⟨h1, h2⟩ := foldl_upd (fun idx => rm (mapLast (· * s) count) (mulIdx idx (mapLast (fun _ => s) (count.map fun _ => 1))))
    (fun idx => file (addIdx fstart idx)) (boxIdx count) mem
    ((nodup_boxIdx count).map_on fun a ha b hb h => by
      rw [e a ha, e b hb] at h
      exact rm_inj ha hb (Nat.eq_of_mul_eq_mul_right hs h))
  refine ⟨fun idx hi => ?_, fun a ha => h2 a fun hm => ?_⟩
  · have := h1 idx hi
    simp only [e idx hi] at this
    exact this
  · obtain ⟨idx, hi, h⟩ := List.mem_map.1 hm
    exact ha idx hi (by rw [← h, e idx hi])

theorem copy4_spec (data : ℕ → ℝ) (stride : ℕ) : ∀ (m N i : ℕ) (c : ℕ → ℝ), N = i + 4 * m →
    (copy4 data stride N i c).2 = N ∧ (∀ j, (copy4 data stride N i c).1 j = if i ≤ j ∧ j < N then data (j * stride) else c j) := by
  intro m
  induction m with
  | zero =>
    intro N i c h
    unfold copy4
    rw [if_neg (by omega)]
    refine ⟨by simp only; omega, fun j => by rw [if_neg (by omega)]⟩
  | succ m ih =>
    intro N i c h
    unfold copy4
    rw [if_pos (by omega)]
    obtain ⟨h1, h2⟩ := ih N (i + 4)
      (Function.update (Function.update (Function.update (Function.update c i (data (i * stride))) (i + 1) (data ((i + 1) * stride))) (i + 2)
        (data ((i + 2) * stride))) (i + 3) (data ((i + 3) * stride))) (by omega)
    refine ⟨h1, fun j => ?_⟩
    simp only
    rw [h2 j]
    simp only [Function.update_apply]
    by_cases hj : i + 4 ≤ j ∧ j < N
    · rw [if_pos hj, if_pos (by omega)]
    · rw [if_neg hj]
      by_cases h3 : j = i + 3
      · subst h3; rw [if_pos rfl, if_pos (by omega)]
      · rw [if_neg h3]
        by_cases h4 : j = i + 2
        · subst h4; rw [if_pos rfl, if_pos (by omega)]
        · rw [if_neg h4]
          by_cases h5 : j = i + 1
          · subst h5; rw [if_pos rfl, if_pos (by omega)]
          · rw [if_neg h5]
            by_cases h6 : j = i
            · subst h6; rw [if_pos rfl, if_pos (by omega)]
            · rw [if_neg h6, if_neg (by omega)]

theorem copyStrided_spec (data : ℕ → ℝ) (stride N : ℕ) (c0 : ℕ → ℝ) :
    ∃ c, copyStrided data stride N c0 = some c ∧ ∀ j, c j = if j < N then data (j * stride) else c0 j := by
  unfold copyStrided
  obtain ⟨g1, g2⟩ := foldl_upd (fun i : ℕ => i) (fun i => data (i * stride)) (List.range (N % 4)) c0 (by simpa using List.nodup_range)
  obtain ⟨h1, h2⟩ := copy4_spec data stride (N / 4) N (N % 4) ((List.range (N % 4)).foldl (fun c i => Function.update c i (data (i * stride))) c0) (by omega)
  simp only
  rw [if_pos h1]
  refine ⟨_, rfl, fun j => ?_⟩
  rw [h2 j]
  by_cases hj : j < N % 4
  · rw [if_neg (by omega), if_pos (by omega)]
    exact g1 j (List.mem_range.2 hj)
  · by_cases hj2 : j < N
    · rw [if_pos (by omega), if_pos hj2]
    · rw [if_neg (by omega), if_neg hj2]
      exact g2 j (by simpa using hj)

end Mpb.IO

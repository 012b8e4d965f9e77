import Verif.Dist.Props
import Verif.Util.MpiProps

/-! # C94: plane waves -/

namespace Mpb.Dist

open Mpb.Maxwell Mpb.Maxwell.Spec Mpb.Parity Mpb.Dist.Spec

variable {P : ℕ}

/-! ## The dominant plane wave -/

/-- What the search loop finds: the first of the largest amplitudes. -/
theorem dominantLoop_spec {amp : ℕ → ℝ} : ∀ n, let st := dominantLoop amp n
    0 ≤ st.1 ∧ (∀ j < n, amp j ≤ st.1) ∧ ((st.1 = 0 ∧ st.2 = 0) ∨ (0 < st.1 ∧ st.2 < n ∧ amp st.2 = st.1 ∧ ∀ j < st.2, amp j < st.1)) := by
  intro n
  induction n with
  | zero => simp [dominantLoop]
  | succ n ih =>
    obtain ⟨i0, i1, i2⟩ := ih
    rw [dominantLoop]
    simp only
    split
    · rename_i h
      refine ⟨by linarith, fun j hj => ?_, Or.inr ⟨by simp only; linarith, by simp, rfl, fun j hj => ?_⟩⟩
      · rcases Nat.lt_succ_iff_lt_or_eq.1 hj with hj | rfl
        · exact (i1 j hj).trans h.le
        · exact le_rfl
      · exact (i1 j hj).trans_lt h
    · rename_i h
      push Not at h
      refine ⟨i0, fun j hj => ?_, ?_⟩
      · rcases Nat.lt_succ_iff_lt_or_eq.1 hj with hj | rfl
        · exact i1 j hj
        · exact h
      · rcases i2 with i2 | ⟨a, b, c, e⟩
        · exact Or.inl i2
        · exact Or.inr ⟨a, by omega, c, e⟩

/-- `MPI_MAXLOC` over all processes: the largest number and the smallest rank that has it. -/
theorem maxloc_spec (f : ℕ → ℝ) : ∀ n, let st := ((List.range n).map fun i => (f (i + 1), i + 1)).foldl maxloc (f 0, 0)
    st.2 ≤ n ∧ st.1 = f st.2 ∧ (∀ j ≤ n, f j ≤ st.1) ∧ ∀ j < st.2, f j < st.1 := by
  intro n
  induction n with
  | zero => simp
  | succ n ih =>
    rw [List.range_succ, List.map_append, List.foldl_append]
    obtain ⟨i1, i2, i3, i4⟩ := ih
    set st := ((List.range n).map fun i => (f (i + 1), i + 1)).foldl maxloc (f 0, 0) with hst
    simp only [List.map_cons, List.map_nil, List.foldl_cons, List.foldl_nil]
    unfold maxloc
    simp only
    split
    · rename_i h
      refine ⟨by omega, i2, fun j hj => ?_, i4⟩
      rcases Nat.lt_succ_iff_lt_or_eq.1 (Nat.lt_succ_of_le hj) with hj | rfl
      · exact i3 j (by omega)
      · exact h.le
    · rename_i h
      push Not at h
      split
      · rename_i h2
        refine ⟨le_rfl, rfl, fun j hj => ?_, fun j hj => ?_⟩
        · rcases Nat.lt_succ_iff_lt_or_eq.1 (Nat.lt_succ_of_le hj) with hj | rfl
          · exact (i3 j (by omega)).trans h
          · exact le_rfl
        · exact (i3 j (by omega)).trans_lt h2
      · rename_i h2
        push Not at h2
        have e : f (n + 1) = st.1 := le_antisymm h2 h
        have em : min st.2 (n + 1) = st.2 := by omega
        rw [em]
        refine ⟨by omega, i2, fun j hj => ?_, i4⟩
        rcases Nat.lt_succ_iff_lt_or_eq.1 (Nat.lt_succ_of_le hj) with hj | rfl
        · exact i3 j (by omega)
        · exact e.le

theorem ofFn_eq {n : ℕ} (f : Fin (n + 1) → ℝ) (g : ℕ → ℕ) :
    (List.ofFn fun r => (f r, g r.val)) = (f 0, g 0) :: (List.range n).map fun i => ((if h : i + 1 < n + 1 then f ⟨i + 1, h⟩ else 0), g (i + 1)) := by
  rw [List.ofFn_succ]
  refine congrArg₂ _ rfl ?_
  apply List.ext_getElem
  · simp
  · intro i h1 h2
    simp only [List.length_ofFn] at h1
    simp only [List.getElem_ofFn, List.getElem_map, List.getElem_range, Fin.val_succ]
    rw [dif_pos (by omega)]
    rfl

/-- C94 (dominant plane wave).  If every process has a plane wave and the processes are not divided into groups, all get the plane wave
that one process would find, also when several plane waves have the largest amplitude. -/
theorem C94_dominant_partial (l : Layout P) (nx m : ℕ) (hm : 0 < m) (hnx : 0 < nx) (h : Covers l nx) (hne : ∀ r, 0 < l.size r) (hmono : StrictMono l.start)
    (p : ℕ) (kpg : ℕ → KData) (kpgs : Fin P → ℕ → KData) (hk : Pieces l m kpg kpgs) (H : ℕ → ℂ) (Hs : Fin P → ℕ → ℂ)
    (hH : Pieces l (m * (2 * p)) H Hs) (band : ℤ) :
    dominantPlanewave (fun r => r.val) (fun r => l.size r * m) kpgs p Hs band = Maxwell.dominantPlanewave (nx * m) kpg p H band := by
  unfold dominantPlanewave Maxwell.dominantPlanewave
  by_cases hb : 1 ≤ band ∧ band ≤ p
  swap
  · rw [if_neg hb, if_neg hb]
  rw [if_pos hb, if_pos hb]
  simp only
  set b := band.toNat with hbd
  have hb1 : 1 ≤ b ∧ b ≤ p := by omega
  set amp := fun i => normSqr (H ((i * 2 + 0) * p + (b - 1))) + normSqr (H ((i * 2 + 1) * p + (b - 1))) with hamp
  set amps := fun r i => normSqr (Hs r ((i * 2 + 0) * p + (b - 1))) + normSqr (Hs r ((i * 2 + 1) * p + (b - 1))) with hamps
  have hpos : ∀ r, 0 < l.size r * m := fun r => Nat.mul_pos (hne r) hm
  have hloc : ∀ r, dominantLocal (l.size r * m) (kpgs r) p (Hs r) b = some ((dominantLoop (amps r) (l.size r * m)).1,
      (⟨(V3.cross (kpgs r (dominantLoop (amps r) (l.size r * m)).2).m (kpgs r (dominantLoop (amps r) (l.size r * m)).2).n).x *
          (kpgs r (dominantLoop (amps r) (l.size r * m)).2).kmag,
        (V3.cross (kpgs r (dominantLoop (amps r) (l.size r * m)).2).m (kpgs r (dominantLoop (amps r) (l.size r * m)).2).n).y *
          (kpgs r (dominantLoop (amps r) (l.size r * m)).2).kmag,
        (V3.cross (kpgs r (dominantLoop (amps r) (l.size r * m)).2).m (kpgs r (dominantLoop (amps r) (l.size r * m)).2).n).z *
          (kpgs r (dominantLoop (amps r) (l.size r * m)).2).kmag⟩ : V3 ℝ)) := by
    intro r
    unfold dominantLocal
    rw [if_neg (hpos r).ne']
  have hall : ∀ r, (dominantLocal (l.size r * m) (kpgs r) p (Hs r) b).isSome := fun r => by rw [hloc r]; rfl
  rw [if_pos hall]
  simp only [hloc, Option.getD_some]
  -- amplitudes of the processes are those of the whole
  have hA : ∀ r, ∀ i < l.size r * m, amps r i = amp (l.start r * m + i) := by
    intro r i hi
    have := pieces_band.1 hH r i hi (b - 1) (by omega)
    have e1 := congrArg Prod.fst this
    have e2 := congrArg Prod.snd this
    simp only [Maxwell.Spec.band] at e1 e2
    simp only [hamps, hamp, e1, e2]
  -- there is a process
  obtain ⟨r0, -, -⟩ := h.owner 0 hnx
  obtain ⟨n, rfl⟩ : ∃ n, P = n + 1 := ⟨P - 1, by have := r0.isLt; omega⟩
  have hzero : l.start 0 = 0 := by
    obtain ⟨r, ⟨hr, -⟩, -⟩ := h.owner 0 hnx
    have := hmono.monotone (Fin.zero_le r)
    omega
  unfold dominantComm
  rw [ofFn_eq (fun r => (dominantLoop (amps r) (l.size r * m)).1) (fun i => i)]
  simp only
  set f : ℕ → ℝ := fun i => if hi : i < n + 1 then (dominantLoop (amps ⟨i, hi⟩) (l.size ⟨i, hi⟩ * m)).1 else 0 with hf
  have hf0 : (dominantLoop (amps 0) (l.size 0 * m)).1 = f 0 := by simp only [hf]; rw [dif_pos (by omega)]; rfl
  have hlist : (List.range n).map (fun i => ((if h : i + 1 < n + 1 then (dominantLoop (amps ⟨i + 1, h⟩) (l.size ⟨i + 1, h⟩ * m)).1 else 0), i + 1)) =
      (List.range n).map fun i => (f (i + 1), i + 1) := rfl
  rw [hf0, hlist]
  obtain ⟨s1, s2, s3, s4⟩ := maxloc_spec f n
  set st := ((List.range n).map fun i => (f (i + 1), i + 1)).foldl maxloc (f 0, 0) with hst
  rw [dif_pos (show st.2 < n + 1 by omega)]
  set R : Fin (n + 1) := ⟨st.2, by omega⟩ with hR
  have hfr : ∀ r : Fin (n + 1), f r.val = (dominantLoop (amps r) (l.size r * m)).1 := fun r => by simp only [hf]; rw [dif_pos r.isLt]
  have hidx : l.start R * m + (dominantLoop (amps R) (l.size R * m)).2 = (dominantLoop amp (nx * m)).2 := by
    obtain ⟨g0, g1, g2⟩ := dominantLoop_spec (amp := amp) (nx * m)
    obtain ⟨a0, a1, a2⟩ := dominantLoop_spec (amp := amps R) (l.size R * m)
    have hM : st.1 = (dominantLoop (amps R) (l.size R * m)).1 := by rw [s2, ← hfr R]
    -- every plane wave has amplitude at most st.1, and is on a process
    have hown : ∀ i < nx * m, ∃ r : Fin (n + 1), ∃ i' < l.size r * m, i = l.start r * m + i' := by
      intro i hi
      obtain ⟨x, hx, t, ht, rfl⟩ := exists_od_ld hi
      obtain ⟨r, ⟨hr1, hr2⟩, -⟩ := h.owner x hx
      refine ⟨r, (x - l.start r) * m + t, rowMajor_lt (by omega) ht, ?_⟩
      obtain ⟨y, rfl⟩ := Nat.exists_eq_add_of_le hr1
      rw [Nat.add_sub_cancel_left]; ring
    have hle : ∀ i < nx * m, amp i ≤ st.1 := by
      intro i hi
      obtain ⟨r, i', hi', rfl⟩ := hown i hi
      rw [← hA r i' hi']
      refine ((dominantLoop_spec (amp := amps r) (l.size r * m)).2.1 i' hi').trans ?_
      rw [← hfr r]
      exact s3 r.val (by omega)
    have hins : ∀ r : Fin (n + 1), ∀ i' < l.size r * m, l.start r * m + i' < nx * m := by
      intro r i' hi'
      have := h.inside r (hne r)
      calc l.start r * m + i' < l.start r * m + l.size r * m := by omega
        _ = (l.start r + l.size r) * m := by ring
        _ ≤ nx * m := Nat.mul_le_mul_right _ this
    rcases a2 with ⟨z1, z2⟩ | ⟨p1, p2, p3, p4⟩
    · -- all amplitudes vanish
      have hst0 : st.1 = 0 := by rw [hM, z1]
      have hR0 : st.2 = 0 := by
        by_contra hc
        have := s4 0 (by omega)
        rw [hst0] at this
        have h0 := (dominantLoop_spec (amp := amps 0) (l.size 0 * m)).1
        have := hfr 0
        simp only [Fin.val_zero] at this
        linarith
      have hRz : R = 0 := Fin.ext hR0
      rw [z2, hRz, hzero]
      rcases g2 with ⟨-, e⟩ | ⟨q1, q2, q3, -⟩
      · rw [e]; simp
      · have := hle _ q2
        rw [q3, hst0] at this
        linarith
    · have hj := hins R _ p2
      have hv : amp (l.start R * m + (dominantLoop (amps R) (l.size R * m)).2) = st.1 := by rw [← hA R _ p2, p3, hM]
      have hfirst : ∀ i < l.start R * m + (dominantLoop (amps R) (l.size R * m)).2, amp i < st.1 := by
        intro i hi
        obtain ⟨r, i', hi', rfl⟩ := hown i (by omega)
        rw [← hA r i' hi']
        rcases lt_trichotomy r R with hlt | heq | hgt
        · have h1 := s4 r.val hlt
          rw [hfr r] at h1
          exact ((dominantLoop_spec (amp := amps r) (l.size r * m)).2.1 i' hi').trans_lt h1
        · subst heq
          rw [hM]
          exact p4 i' (by omega)
        · exfalso
          -- the rows of a later process come later
          have hs := hmono hgt
          have hov : l.start R + l.size R ≤ l.start r := by
            by_contra hc
            push Not at hc
            obtain ⟨w, -, hu⟩ := h.owner (l.start r) (by have := h.inside r (hne r); have := hne r; omega)
            have e1 := hu r ⟨le_rfl, by have := hne r; omega⟩
            have e2 := hu R ⟨hs.le, hc⟩
            rw [e1, ← e2] at hgt
            exact lt_irrefl _ hgt
          have : l.start R * m + l.size R * m ≤ l.start r * m := by
            calc l.start R * m + l.size R * m = (l.start R + l.size R) * m := by ring
              _ ≤ _ := Nat.mul_le_mul_right _ hov
          omega
      rcases g2 with ⟨e, -⟩ | ⟨q1, q2, q3, q4⟩
      · have := g1 _ hj
        rw [hv, e, hM] at this
        linarith
      · have hmax : (dominantLoop amp (nx * m)).1 = st.1 := by
          apply le_antisymm
          · rw [← q3]; exact hle _ q2
          · rw [← hv]; exact g1 _ hj
        rcases lt_trichotomy (l.start R * m + (dominantLoop (amps R) (l.size R * m)).2) (dominantLoop amp (nx * m)).2 with hc | hc | hc
        · have := q4 _ hc
          rw [hv, hmax] at this
          exact absurd this (lt_irrefl _)
        · exact hc
        · have := hfirst _ hc
          rw [q3, hmax] at this
          exact absurd this (lt_irrefl _)
  have hkr : kpgs R (dominantLoop (amps R) (l.size R * m)).2 = kpg (dominantLoop amp (nx * m)).2 := by
    rw [hk R _ (dominantLoop_lt (hpos R)), hidx]
  have hfin : ∀ r : Fin (n + 1), r = R → kpgs r (dominantLoop (amps r) (l.size r * m)).2 = kpg (dominantLoop amp (nx * m)).2 := by
    rintro r rfl; exact hkr
  simp only [hkr]

/-- If the ranks among all processes are at least the size of the group, the root of the broadcast does not exist. -/
theorem dominant_root (grank : Fin P → ℕ) (ho : ∀ r, P ≤ grank r) (nG : Fin P → ℕ) (kpgs : Fin P → ℕ → KData) (p : ℕ) (Hs : Fin P → ℕ → ℂ) (band : ℤ) :
    dominantPlanewave grank nG kpgs p Hs band = none := by
  unfold dominantPlanewave
  by_cases hb : 1 ≤ band ∧ band ≤ p
  swap
  · rw [if_neg hb]
  rw [if_pos hb]
  simp only
  split
  · unfold dominantComm
    cases hl : List.ofFn (fun r : Fin P => (((dominantLocal (nG r) (kpgs r) p (Hs r) band.toNat).getD (0, ⟨0, 0, 0⟩)).1, grank r)) with
    | nil => rfl
    | cons a t =>
      simp only
      have hall : ∀ x ∈ a :: t, P ≤ x.2 := by
        intro x hx
        rw [← hl, List.mem_ofFn] at hx
        obtain ⟨r, rfl⟩ := hx
        exact ho r
      have hfold : ∀ (t : List (ℝ × ℕ)) (a : ℝ × ℕ), P ≤ a.2 → (∀ x ∈ t, P ≤ x.2) → P ≤ (t.foldl maxloc a).2 := by
        intro t
        induction t with
        | nil => intro a ha _; exact ha
        | cons x t ih =>
          intro a ha ht
          rw [List.foldl_cons]
          apply ih
          · have := ht x (by simp)
            unfold maxloc
            split
            · exact ha
            · split
              · exact this
              · simp only; omega
          · exact fun y hy => ht y (by simp [hy])
      have := hfold t a (hall a (by simp)) fun x hx => hall x (by simp [hx])
      rw [dif_neg (by omega)]
  · rfl

/-- C94 fails for the dominant plane wave when the processes are divided into groups: in every group but the first, whatever the bands
are, the processes broadcast from a process that is not in the group. -/
theorem C94_dominant_groups_refuted {sz n g : ℕ} (h1 : 1 ≤ g) (hg : g < n) (hle : n ≤ sz) (hmax : (sz - 1) * n ≤ Util.intMax)
    (hP : P = (Util.members sz n g).card) (grank : Fin P → ℕ) (hr : ∀ r, grank r ∈ Util.members sz n g) (nG : Fin P → ℕ)
    (kpgs : Fin P → ℕ → KData) (p : ℕ) (Hs : Fin P → ℕ → ℂ) (band : ℤ) : dominantPlanewave grank nG kpgs p Hs band = none := by
  refine dominant_root grank (fun r => ?_) nG kpgs p Hs band
  have hr := hr r
  rw [Util.members_eq (by omega) hle hmax hg, Finset.mem_Ico] at hr
  rw [hP, Util.members_eq (by omega) hle hmax hg, Nat.card_Ico]
  refine le_trans ?_ hr.1
  set a := (g * sz + n - 1) / n with ha
  have a2 : g * sz + n - 1 < (a + 1) * n := by rw [ha, Nat.mul_comm _ n]; exact Nat.lt_mul_div_succ _ (by omega)
  have h3 : (g + 1) * sz ≤ 2 * (g * sz) := by nlinarith
  have h4 : ((g + 1) * sz + n - 1) / n ≤ a + a := by
    refine (Nat.div_le_iff_le_mul_add_pred (by omega : 0 < n)).2 ?_
    have e1 : (a + 1) * n = a * n + n := by ring
    have e2 : n * (a + a) = a * n + a * n := by ring
    omega
  omega

/-- C94 fails for the dominant plane wave when a process has no plane wave: it reads the first entry of an empty array. -/
theorem C94_dominant_idle_refuted (grank : Fin P → ℕ) (nG : Fin P → ℕ) (r : Fin P) (hr : nG r = 0) (kpgs : Fin P → ℕ → KData) (p : ℕ)
    (Hs : Fin P → ℕ → ℂ) (band : ℤ) : dominantPlanewave grank nG kpgs p Hs band = none := by
  unfold dominantPlanewave
  split
  · simp only
    rw [if_neg]
    intro h
    have := h r
    unfold dominantLocal at this
    rw [if_pos hr] at this
    simp at this
  · rfl

/-! ## Setting a plane wave -/

open Classical in
/-- The two amplitudes of a plane wave, or `none` if its polarisations are not defined. -/
noncomputable def pwAmps (k : KData) (axis : V3 ℝ) (s pa : ℂ) : Option (ℂ × ℂ) :=
  let kv := V3.cross k.m k.n
  let pv := V3.cross kv axis
  let len := Real.sqrt (pv.x * pv.x + pv.y * pv.y + pv.z * pv.z)
  if len > 0 then
    let pv : V3 ℝ := ⟨pv.x / len, pv.y / len, pv.z / len⟩
    let sv := V3.cross kv pv
    let Hx : ℂ := ⟨s.re * sv.x + pa.re * pv.x, s.im * sv.x + pa.im * pv.x⟩
    let Hy : ℂ := ⟨s.re * sv.y + pa.re * pv.y, s.im * sv.y + pa.im * pv.y⟩
    let Hz : ℂ := ⟨s.re * sv.z + pa.re * pv.z, s.im * sv.z + pa.im * pv.z⟩
    some (⟨Hx.re * k.m.x + Hy.re * k.m.y + Hz.re * k.m.z, Hx.im * k.m.x + Hy.im * k.m.y + Hz.im * k.m.z⟩,
      ⟨Hx.re * k.n.x + Hy.re * k.n.y + Hz.re * k.n.z, Hx.im * k.n.x + Hy.im * k.n.y + Hz.im * k.n.z⟩)
  else none

/-- The band with all amplitudes set to zero. -/
noncomputable def zeroBand (n p b : ℕ) (H : ℕ → ℂ) : ℕ → ℂ := writes ((loop2 n 2).map fun t => ((t.1 * 2 + t.2) * p + b, (0 : ℂ))) H

theorem zeroBand_apply {n p b : ℕ} (hb : b < p) (H : ℕ → ℂ) {G : ℕ} (hG : G < n) {j : ℕ} (hj : j < p) :
    band p (zeroBand n p b H) j G = if j = b then (0, 0) else band p H j G := by
  have h : ∀ c < 2, zeroBand n p b H ((G * 2 + c) * p + j) = if j = b then 0 else H ((G * 2 + c) * p + j) := by
    intro c hc
    unfold zeroBand
    split
    · rename_i e
      subst e
      exact writes_map_apply (addr := fun t : ℕ × ℕ => (t.1 * 2 + t.2) * p + j) (val := fun _ => (0 : ℂ))
        (i := (G, c)) (mem_loop2.2 ⟨hG, hc⟩) (fun _ _ _ => rfl)
    · rename_i e
      refine writes_map_other (addr := fun t : ℕ × ℕ => (t.1 * 2 + t.2) * p + b) (val := fun _ => (0 : ℂ)) fun t _ e' => ?_
      exact e (rowMajor_inj hb hj e').2.symm
  unfold band
  rw [h 0 (by omega), h 1 (by omega)]
  split <;> rfl

theorem put_apply {p b i : ℕ} (hb : b < p) (H : ℕ → ℂ) (v : ℂ × ℂ) {G j : ℕ} (hj : j < p) :
    band p (writes [((i * 2 + 0) * p + b, v.1), ((i * 2 + 1) * p + b, v.2)] H) j G = if j = b ∧ G = i then v else band p H j G := by
  unfold band
  simp only [writes_cons, writes_nil]
  have key : ∀ c c' : ℕ, c < 2 → c' < 2 → ((G * 2 + c) * p + j = (i * 2 + c') * p + b ↔ j = b ∧ G = i ∧ c = c') := by
    intro c c' hc hc'
    constructor
    · intro e
      have := rowMajor_inj hj hb e
      omega
    · rintro ⟨rfl, rfl, rfl⟩; rfl
  simp only [Function.update_apply, key 0 0 (by omega) (by omega), key 0 1 (by omega) (by omega), key 1 0 (by omega) (by omega),
    key 1 1 (by omega) (by omega)]
  by_cases h : j = b ∧ G = i
  · simp [h]
  · have : ¬ (j = b ∧ G = i ∧ 0 = 0) := by simpa using h
    simp only [h, if_false]
    refine Prod.ext ?_ ?_ <;> simp only <;> simp [h, show ∀ x, ¬ (j = b ∧ G = i ∧ x) from fun x hx => h ⟨hx.1, hx.2.1⟩]

theorem serial_eq (nx ny nz : ℕ) (kpg : ℕ → KData) (p : ℕ) (H : ℕ → ℂ) (bd : ℕ) (g : V3 ℤ) (s pa : ℂ) (axis : V3 ℝ) :
    Maxwell.setPlanewave nx ny nz kpg p H bd g s pa axis =
      if 0 ≤ gIndex nx g.x ∧ 0 ≤ gIndex ny g.y ∧ 0 ≤ gIndex nz g.z ∧ gIndex nx g.x < nx ∧ gIndex ny g.y < ny ∧ gIndex nz g.z < nz then
        (pwAmps (kpg (((gIndex nx g.x).toNat * ny + (gIndex ny g.y).toNat) * nz + (gIndex nz g.z).toNat)) axis s pa).map fun v =>
          writes [(((((gIndex nx g.x).toNat * ny + (gIndex ny g.y).toNat) * nz + (gIndex nz g.z).toNat) * 2 + 0) * p + (bd - 1), v.1),
            (((((gIndex nx g.x).toNat * ny + (gIndex ny g.y).toNat) * nz + (gIndex nz g.z).toNat) * 2 + 1) * p + (bd - 1), v.2)]
            (zeroBand (nx * ny * nz) p (bd - 1) H)
      else none := by
  unfold Maxwell.setPlanewave pwAmps zeroBand
  dsimp only
  split_ifs <;> rfl

theorem local_eq (nx ny nz xs lnx : ℕ) (kpg : ℕ → KData) (p : ℕ) (H : ℕ → ℂ) (bd : ℕ) (g : V3 ℤ) (s pa : ℂ) (axis : V3 ℝ) :
    setPlanewaveLocal nx ny nz xs lnx kpg p H bd g s pa axis =
      if 0 ≤ gIndex nx g.x ∧ 0 ≤ gIndex ny g.y ∧ 0 ≤ gIndex nz g.z ∧ gIndex nx g.x < nx ∧ gIndex ny g.y < ny ∧ gIndex nz g.z < nz then
        if gIndex nx g.x ≥ xs ∧ gIndex nx g.x < xs + lnx then
        (pwAmps (kpg ((((gIndex nx g.x).toNat - xs) * ny + (gIndex ny g.y).toNat) * nz + (gIndex nz g.z).toNat)) axis s pa).map fun v =>
          writes [((((((gIndex nx g.x).toNat - xs) * ny + (gIndex ny g.y).toNat) * nz + (gIndex nz g.z).toNat) * 2 + 0) * p + (bd - 1), v.1),
            ((((((gIndex nx g.x).toNat - xs) * ny + (gIndex ny g.y).toNat) * nz + (gIndex nz g.z).toNat) * 2 + 1) * p + (bd - 1), v.2)]
            (zeroBand (lnx * ny * nz) p (bd - 1) H)
        else some (zeroBand (lnx * ny * nz) p (bd - 1) H)
      else none := by
  unfold setPlanewaveLocal pwAmps zeroBand
  dsimp only
  split_ifs <;> rfl

/-- C94 (setting a plane wave).  `maxwell_set_planewave` on all processes: it stops with an error exactly when one process would, and
otherwise the pieces are those of one process; only the process that holds the plane wave writes amplitudes other than zero. -/
theorem C94_planewave (l : Layout P) (nx ny nz : ℕ) (h : Covers l nx) (hnx : 0 < nx) (kpg : ℕ → KData) (kpgs : Fin P → ℕ → KData)
    (hk : Pieces l (ny * nz) kpg kpgs) (p : ℕ) (H : ℕ → ℂ) (Hs : Fin P → ℕ → ℂ) (hH : Pieces l (ny * nz * (2 * p)) H Hs) (bd : ℕ)
    (hb : 1 ≤ bd ∧ bd ≤ p) (g : V3 ℤ) (s pa : ℂ) (axis : V3 ℝ) :
    SameOutcome l (ny * nz * (2 * p)) (Maxwell.setPlanewave nx ny nz kpg p H bd g s pa axis)
      (setPlanewave l nx ny nz kpgs p Hs bd g s pa axis) := by
  unfold SameOutcome
  obtain ⟨r0, -, -⟩ := h.owner 0 hnx
  unfold setPlanewave
  rw [serial_eq]
  simp only [local_eq]
  generalize gIndex nx g.x = x
  generalize gIndex ny g.y = y
  generalize gIndex nz g.z = z
  by_cases hc : 0 ≤ x ∧ 0 ≤ y ∧ 0 ≤ z ∧ x < nx ∧ y < ny ∧ z < nz
  swap
  · simp only [if_neg hc]
    rw [if_neg (by push Not; exact ⟨r0, by simp⟩)]
    trivial
  simp only [if_pos hc]
  obtain ⟨x, rfl⟩ := Int.eq_ofNat_of_zero_le hc.1
  obtain ⟨y, rfl⟩ := Int.eq_ofNat_of_zero_le hc.2.1
  obtain ⟨z, rfl⟩ := Int.eq_ofNat_of_zero_le hc.2.2.1
  obtain ⟨-, -, -, hx, hy, hz⟩ := hc
  have hx : x < nx := by exact_mod_cast hx
  have hy : y < ny := by exact_mod_cast hy
  have hz : z < nz := by exact_mod_cast hz
  obtain ⟨w, ⟨hw1, hw2⟩, hu⟩ := h.owner x hx
  have hcond : ∀ r, (((x : ℕ) : ℤ) ≥ (l.start r : ℤ) ∧ ((x : ℕ) : ℤ) < l.start r + l.size r) ↔ r = w := by
    intro r
    constructor
    · rintro ⟨a, b⟩
      exact hu r ⟨by omega, by omega⟩
    · rintro rfl
      exact ⟨by omega, by omega⟩
  simp only [Int.ofNat_eq_natCast, hcond, Int.toNat_natCast]
  obtain ⟨t, rfl⟩ := Nat.exists_eq_add_of_le hw1
  have hidx : l.start w * (ny * nz) + ((t * ny + y) * nz + z) = ((l.start w + t) * ny + y) * nz + z := by ring
  have hin : (t * ny + y) * nz + z < l.size w * (ny * nz) := by
    have := rowMajor_lt (rowMajor_lt (show t < l.size w by omega) hy) hz
    rw [← Nat.mul_assoc]; exact this
  have hkw : kpgs w ((((l.start w + t) - l.start w) * ny + y) * nz + z) = kpg (((l.start w + t) * ny + y) * nz + z) := by
    rw [Nat.add_sub_cancel_left, hk w _ hin, hidx]
  cases hv : pwAmps (kpg (((l.start w + t) * ny + y) * nz + z)) axis s pa with
  | none =>
    rw [if_neg]
    · trivial
    · push Not
      refine ⟨w, ?_⟩
      rw [if_pos rfl, hkw, hv]
      simp
  | some v =>
    rw [if_pos]
    swap
    · intro r
      split
      · rename_i e
        subst e
        rw [hkw, hv]; rfl
      · rfl
    simp only [Option.map_some]
    rw [pieces_band] at hH ⊢
    intro r G hG b hbp
    have hG' : G < l.size r * ny * nz := by rw [Nat.mul_assoc]; exact hG
    have h0 : 0 < l.size r := Nat.pos_of_ne_zero fun e => by rw [e] at hG; simp at hG
    have h1 := h.inside r h0
    have hlt : l.start r * (ny * nz) + G < nx * ny * nz := by
      calc l.start r * (ny * nz) + G < l.start r * (ny * nz) + l.size r * (ny * nz) := by omega
        _ = (l.start r + l.size r) * (ny * nz) := by ring
        _ ≤ nx * (ny * nz) := Nat.mul_le_mul_right _ h1
        _ = _ := by ring
    rw [put_apply (by omega) _ _ hbp, zeroBand_apply (by omega) _ hlt hbp]
    by_cases hr : r = w
    · subst hr
      rw [if_pos rfl, hkw, hv, Option.map_some, Option.getD_some, put_apply (by omega) _ _ hbp, zeroBand_apply (by omega) _ hG' hbp,
        hH r G hG b hbp, Nat.add_sub_cancel_left, ← hidx]
      simp only [Nat.add_left_cancel_iff]
    · rw [if_neg hr, Option.getD_some, zeroBand_apply (by omega) _ hG' hbp, hH r G hG b hbp]
      rw [if_neg (c := b = bd - 1 ∧ _)]
      rintro ⟨-, e⟩
      apply hr
      apply hu
      obtain ⟨q, hq, y', hy', z', hz', rfl⟩ := exists_point hG'
      have e2 : ((l.start r + q) * ny + y') * nz + z' = ((l.start w + t) * ny + y) * nz + z := by rw [← e]; ring
      have := (rowMajor_inj hy' hy (rowMajor_inj hz' hz e2).1).1
      exact ⟨by omega, by omega⟩

end Mpb.Dist

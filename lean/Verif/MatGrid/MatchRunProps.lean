import Verif.MatGrid.MatchRunModel
import Verif.MatGrid.MatchCases

/-! # Property C118: `material-grids-match-epsilon-file!` as a whole -/

namespace Mpb.MatGrid
open Mpb.Field Mpb.Maxwell Mpb.Tensor Mpb.Epsilon Spec

namespace Spec

/-- What the NLopt manual promises of a minimisation with bounds in `n` variables by a local algorithm that stops by a tolerance:
a starting point outside the bounds is refused (a code that is not positive); otherwise the objective is first asked for at the starting point,
and only within the bounds; if the code returned is positive, the point returned is one at which the objective was asked for, the value returned
is the value found there, and none of the values found was smaller. -/
structure NloptOk (n : ℕ) (nlopt : Nlopt) : Prop where
  refuses : ∀ u lb ub tol, (∃ i < n, u.get i < lb i ∨ ub i < u.get i) → ∃ r v m, nlopt u lb ub tol [] = .stop r v m ∧ r ≤ 0
  start : ∀ u lb ub tol, u.len = n → (∀ i < n, lb i ≤ u.get i ∧ u.get i ≤ ub i) → nlopt u lb ub tol [] = .eval u
  inside : ∀ u lb ub tol h v, nlopt u lb ub tol h = .eval v → u.len = n → v.len = n ∧ ∀ i < n, lb i ≤ v.get i ∧ v.get i ≤ ub i
  best : ∀ u lb ub tol h r v m, nlopt u lb ub tol h = .stop r v m → 0 < r → (∃ g, (v, m, g) ∈ h) ∧ ∀ e ∈ h, m ≤ e.2.1

/-- All values of the grids are between `low` and 1. -/
def Within (low : ℝ) (grids : List MGrid) (U : Mem) : Prop :=
  ∀ g ∈ grids, ∀ i < g.nx * g.ny * g.nz, low ≤ (U g.arr).get i ∧ (U g.arr).get i ≤ 1

/-- The least value given to a grid: 0, but 0.0001 if one of the grids is multiplied with the others. -/
noncomputable def leastValue (grids : List MGrid) : ℝ := if ∃ g ∈ grids, g.kind = .uProd then 1e-4 else 0

end Spec

theorem matchLow_eq (grids : List MGrid) : matchLow grids = leastValue grids := by
  unfold matchLow leastValue
  simp

/-- One pass with or without gradient gives the same value. -/
theorem matchStep_val {S : Shape} {g : Geom} {U : Mem} {grids : List MGrid} {heev : Heev} {T : Target} {epsInv : ℕ → HMat} {sc : ℝ}
    {a : ℝ} {w w0 : Arr} {q : Visit} {r : ℝ × Arr} (h : matchStep S g U grids heev T epsInv sc true (a, w) q = some r) :
    matchStep S g U grids heev T epsInv sc false (a, w0) q = some (r.1, w0) := by
  unfold matchStep matchMirror at h ⊢
  simp only [Option.bind_eq_bind, if_true, Bool.false_eq_true, if_false, Option.bind_some] at h ⊢
  rw [Option.bind_eq_some_iff] at h
  obtain ⟨e, h1, h⟩ := h
  rw [Option.bind_eq_some_iff] at h
  obtain ⟨e0, h2, h⟩ := h
  rw [Option.bind_eq_some_iff] at h
  obtain ⟨w1, h3, h⟩ := h
  rw [h1, h2]
  simp only [Option.bind_some]
  cases hd : S.doubled q.j with
  | false =>
    rw [hd] at h
    simp only [Bool.false_eq_true, if_false, Option.some.injEq] at h ⊢
    rw [← h]
  | true =>
    rw [hd] at h
    simp only [if_true] at h ⊢
    rw [Option.bind_eq_some_iff] at h
    obtain ⟨e1, h4, h⟩ := h
    rw [Option.bind_eq_some_iff] at h
    obtain ⟨w2, h5, h⟩ := h
    rw [h4]
    simp only [Option.bind_some, Option.some.injEq] at h ⊢
    rw [← h]

theorem match_fold_val {S : Shape} {g : Geom} {U : Mem} {grids : List MGrid} {heev : Heev} {T : Target} {epsInv : ℕ → HMat} {sc : ℝ} :
    ∀ (l : List Visit) (a : ℝ) (w w0 : Arr) (r : ℝ × Arr), l.foldlM (matchStep S g U grids heev T epsInv sc true) (a, w) = some r →
      l.foldlM (matchStep S g U grids heev T epsInv sc false) (a, w0) = some (r.1, w0) := by
  intro l
  induction l with
  | nil =>
    intro a w w0 r h
    simp only [List.foldlM_nil, Option.pure_def, Option.some.injEq] at h ⊢
    rw [← h]
  | cons q l ih =>
    intro a w w0 r h
    rw [List.foldlM_cons, Option.bind_eq_bind, Option.bind_eq_some_iff] at h
    obtain ⟨b, h1, h2⟩ := h
    rw [List.foldlM_cons, matchStep_val h1, Option.bind_eq_bind, Option.bind_some]
    exact ih b.1 b.2 w0 r h2

/-- The value with gradient is the value without. -/
theorem matchEps_val {S : Shape} {g : Geom} {U0 : Mem} {grids : List MGrid} {heev : Heev} {T : Target} {reset : Mem → Option (ℕ → HMat)} {N n : ℕ}
    {work w0 u : Arr} {r : ℝ × Arr} (h : matchEps S g U0 grids heev T reset N n work true u = some r) :
    matchEps S g U0 grids heev T reset N n w0 false u = some (r.1, w0) := by
  unfold matchEps at h ⊢
  simp only [Option.bind_eq_bind, if_true, Bool.false_eq_true, if_false] at h ⊢
  rw [Option.bind_eq_some_iff] at h
  obtain ⟨U, h1, h⟩ := h
  rw [Option.bind_eq_some_iff] at h
  obtain ⟨e, h2, h⟩ := h
  rw [Option.bind_eq_some_iff] at h
  obtain ⟨b, h3, h⟩ := h
  rw [h1, Option.bind_some, h2, Option.bind_some, match_fold_val _ _ _ w0 _ h3, Option.bind_some]
  simp only [Option.some.injEq] at h ⊢
  rw [← h]

section

variable {S : Shape} (hS : S.Ok) {g : Geom} {bg : V3 ℝ → ℝ} (hsym : S.inv = true → SymGeom S g bg) {grids : List MGrid}
  (hd : DistinctArrays grids) {heev : Heev} {T : Target} (hT : GoodTarget T) {reset : Mem → Option (ℕ → HMat)} (hreset : Pixels S g bg heev reset)
  (hpos : ∀ U, Within (leastValue grids) grids U → Allocated U grids → ∀ q ∈ visits S, ∀ e, g.eps U (pointPos S g.size q.pt) = some e → 0 < e)

include hd in
theorem set_within {u : Arr} {U0 U : Mem} {low : ℝ} (hu : offset grids ≤ u.len) (ha : Allocated U0 grids)
    (h : materialGridsSet u grids 0 U0 = some U) (hb : ∀ i < offset grids, low ≤ u.get i ∧ u.get i ≤ 1) : Within low grids U := by
  intro m hm i hi
  obtain ⟨pre, post, he⟩ := List.append_of_mem hm
  obtain ⟨U', h1, h2⟩ := C51_set u grids U0 hu ha hd
  rw [h1] at h
  rw [← Option.some.inj h, h2 pre m post he i hi]
  refine hb _ ?_
  rw [he, offset_append, offset_cons]
  have : i < m.ntot := hi
  omega

include hd in
theorem set_twice {u : Arr} {U0 U1 U V : Mem} (hu : offset grids ≤ u.len) (ha : Allocated U0 grids) (hlen : ∀ b, (U1 b).len = (U0 b).len)
    (hoff : ∀ b, (∀ m ∈ grids, m.arr ≠ b) → U1 b = U0 b)
    (htail : ∀ m ∈ grids, ∀ i, m.ntot ≤ i → (U1 m.arr).get i = (U0 m.arr).get i)
    (h : materialGridsSet u grids 0 U0 = some U) (h' : materialGridsSet u grids 0 U1 = some V) : V = U := by
  obtain ⟨U', a1, a2, a3, a4⟩ := set_spec u grids 0 U0 (by omega) ha
  obtain ⟨V', b1, b2, b3, b4⟩ := set_spec u grids 0 U1 (by omega) (fun m hm => by rw [hlen]; exact ha m hm)
  obtain rfl : U' = U := by rw [a1] at h; exact Option.some.inj h
  obtain rfl : V' = V := by rw [b1] at h'; exact Option.some.inj h'
  funext b
  by_cases hb : ∀ m ∈ grids, m.arr ≠ b
  · rw [a3 b hb, b3 b hb, hoff b hb]
  · push Not at hb
    obtain ⟨m, hm, rfl⟩ := hb
    obtain ⟨pre, post, he⟩ := List.append_of_mem hm
    obtain ⟨x1, x2⟩ := a4 hd pre m post he
    obtain ⟨y1, y2⟩ := b4 hd pre m post he
    have hl : (V' m.arr).len = (U' m.arr).len := by rw [b2, a2, hlen]
    have hg : (V' m.arr).get = (U' m.arr).get := by
      funext i
      by_cases hi : i < m.ntot
      · rw [x1 i hi, y1 i hi]
      · rw [x2 i (by omega), y2 i (by omega), htail m hm i (by omega)]
    cases hv : V' m.arr
    cases hu : U' m.arr
    rw [hv, hu] at hl hg
    simp only at hl hg
    rw [hl, hg]

/-- The two memories agree but for the values of the grids. -/
structure Alike (grids : List MGrid) (U0 U : Mem) : Prop where
  len : ∀ b, (U b).len = (U0 b).len
  off : ∀ b, (∀ m ∈ grids, m.arr ≠ b) → U b = U0 b
  tail : ∀ m ∈ grids, ∀ i, m.ntot ≤ i → (U m.arr).get i = (U0 m.arr).get i

include hd in
theorem alike_set {u : Arr} {U0 U V : Mem} (hu : offset grids ≤ u.len) (ha : Allocated U0 grids) (h : Alike grids U0 U)
    (hs : materialGridsSet u grids 0 U = some V) : Alike grids U0 V ∧ materialGridsSet u grids 0 U0 = some V := by
  obtain ⟨V', b1, b2, b3, b4⟩ := set_spec u grids 0 U (by omega) (fun m hm => by rw [h.len]; exact ha m hm)
  obtain rfl : V' = V := by rw [b1] at hs; exact Option.some.inj hs
  refine ⟨⟨fun b => by rw [b2, h.len], fun b hb => by rw [b3 b hb, h.off b hb], fun m hm i hi => ?_⟩, ?_⟩
  · obtain ⟨pre, post, he⟩ := List.append_of_mem hm
    rw [(b4 hd pre m post he).2 i hi, h.tail m hm i hi]
  · obtain ⟨W, a1, -⟩ := set_spec u grids 0 U0 (by omega) ha
    rw [a1, set_twice hd hu ha h.len h.off h.tail a1 hs]

include hS hsym hd hT hreset hpos in
/-- What an evaluation within the bounds leaves and returns. -/
theorem matchCall_spec {U0 : Mem} (ha : Allocated U0 grids) {s s' : MatchState} (hl : Alike grids U0 s.mem) {u : Arr} {r : ℝ × Arr}
    (hu : u.len = offset grids) (hb : ∀ i < offset grids, leastValue grids ≤ u.get i ∧ u.get i ≤ 1)
    (h : matchCall S g grids heev T reset (S.nx * S.ny * S.nz) (offset grids) s u = some (r, s')) :
    Alike grids U0 s'.mem ∧ materialGridsSet u grids 0 U0 = some s'.mem ∧ reset s'.mem = some s'.eps ∧ r.1 = misfit S g bg T s'.mem := by
  unfold matchCall at h
  simp only [Option.bind_eq_bind] at h
  rw [Option.bind_eq_some_iff] at h
  obtain ⟨r', h1, h⟩ := h
  rw [Option.bind_eq_some_iff] at h
  obtain ⟨U, h2, h⟩ := h
  rw [Option.bind_eq_some_iff] at h
  obtain ⟨e, h3, h⟩ := h
  simp only [Option.some.injEq, Prod.mk.injEq] at h
  obtain ⟨rfl, rfl⟩ := h
  obtain ⟨k1, k2⟩ := alike_set hd hu.ge ha hl h2
  have ha' : Allocated s.mem grids := fun m hm => by rw [hl.len]; exact ha m hm
  refine ⟨k1, k2, h3, ?_⟩
  obtain ⟨V, v1, v2⟩ := C87_value_partial S hS g bg hsym s.mem grids ha' heev T hT reset hreset (offset grids) u u hu.ge
  rw [h2] at v1
  obtain rfl := Option.some.inj v1
  have := v2 (hpos U (set_within hd hu.ge ha k2 hb) (fun m hm => by rw [k1.len]; exact ha m hm))
  rw [matchEps_val h1] at this
  exact congrArg Prod.fst (Option.some.inj this)

include hS hsym hd hT hreset hpos in
/-- The run of the optimiser: every point of the history is in the bounds and its value is the deviation there. -/
theorem minimise_spec {U0 : Mem} (ha : Allocated U0 grids) (o : List (Arr × ℝ × Arr) → Move)
    (ho : ∀ h v, o h = .eval v → v.len = offset grids ∧ ∀ i < offset grids, leastValue grids ≤ v.get i ∧ v.get i ≤ 1) :
    ∀ (fuel : ℕ) (h : List (Arr × ℝ × Arr)) (s : MatchState) (R : (ℤ × Arr × ℝ) × MatchState), Alike grids U0 s.mem →
      (∀ e ∈ h, e.1.len = offset grids ∧ (∀ i < offset grids, leastValue grids ≤ e.1.get i ∧ e.1.get i ≤ 1) ∧
        ∃ U, materialGridsSet e.1 grids 0 U0 = some U ∧ e.2.1 = misfit S g bg T U) →
      minimise (matchCall S g grids heev T reset (S.nx * S.ny * S.nz) (offset grids)) o fuel h s = some R →
      Alike grids U0 R.2.mem ∧ ∃ h', h <+: h' ∧ o h' = .stop R.1.1 R.1.2.1 R.1.2.2 ∧
        ∀ e ∈ h', e.1.len = offset grids ∧ (∀ i < offset grids, leastValue grids ≤ e.1.get i ∧ e.1.get i ≤ 1) ∧
          ∃ U, materialGridsSet e.1 grids 0 U0 = some U ∧ e.2.1 = misfit S g bg T U := by
  intro fuel
  induction fuel with
  | zero => intro h s R _ _ hR; simp [minimise] at hR
  | succ fuel ih =>
    intro h s R hl hh hR
    rw [minimise] at hR
    cases hm : o h with
    | stop r u m =>
      rw [hm] at hR
      simp only [Option.some.injEq] at hR
      subst hR
      exact ⟨hl, h, List.prefix_refl _, hm, hh⟩
    | eval u =>
      rw [hm] at hR
      simp only at hR
      cases hc : matchCall S g grids heev T reset (S.nx * S.ny * S.nz) (offset grids) s u with
      | none => rw [hc] at hR; cases hR
      | some p =>
        obtain ⟨v, s'⟩ := p
        rw [hc] at hR
        simp only at hR
        obtain ⟨hu, hb⟩ := ho h u hm
        obtain ⟨c1, c2, -, c4⟩ := matchCall_spec hS hsym hd hT hreset hpos ha hl hu hb hc
        obtain ⟨r1, h', r2, r3, r4⟩ := ih (h ++ [(u, v.1, v.2)]) s' R c1 (fun e he => by
          rw [List.mem_append, List.mem_singleton] at he
          rcases he with he | rfl
          · exact hh e he
          · exact ⟨hu, hb, s'.mem, c2, c4⟩) hR
        exact ⟨r1, h', (List.prefix_append _ _).trans r2, r3, r4⟩

end

theorem alike_refl (grids : List MGrid) (U : Mem) : Alike grids U U := ⟨fun _ => rfl, fun _ _ => rfl, fun _ _ _ _ => rfl⟩

/-- C118 (partial: contents above 1 are refused, and zeros are raised beforehand if a grid is of the kind U_PROD, see the refutations below; pixels
without averaged tensors as in C87).  Whenever `material-grids-match-epsilon-file!` returns, every value of every grid is within the bounds, nothing
else in memory has changed, the stored dielectric tensors are those of the grids, the number printed is the root of the mean squared deviation of
the structure as it now is, and if the values were within the bounds before, the deviation has not grown. -/
theorem C118_result_partial (S : Shape) (hS : S.Ok) (g : Geom) (bg : V3 ℝ → ℝ) (hsym : S.inv = true → SymGeom S g bg) (grids : List MGrid)
    (hd : DistinctArrays grids) (heev : Heev) (T : Target) (hT : GoodTarget T) (reset : Mem → Option (ℕ → HMat)) (hreset : Pixels S g bg heev reset)
    (hpos : ∀ U, Within (leastValue grids) grids U → Allocated U grids → ∀ q ∈ visits S, ∀ e, g.eps U (pointPos S g.size q.pt) = some e → 0 < e)
    (nlopt : Nlopt) (hn : NloptOk (offset grids) nlopt) (tol : ℝ) (junk : ℕ → ℝ) (fuel : ℕ) (s s' : MatchState) (ha : Allocated s.mem grids)
    (printed : ℝ) (h : matchFile S g grids heev reset (S.nx * S.ny * S.nz) nlopt (some T) tol junk fuel s = some (.ok (printed, s'))) :
    Within (leastValue grids) grids s'.mem ∧ ((∀ b, (s'.mem b).len = (s.mem b).len) ∧ ∀ b, (∀ m ∈ grids, m.arr ≠ b) → s'.mem b = s.mem b) ∧
      reset s'.mem = some s'.eps ∧
      printed = Real.sqrt (misfit S g bg T s'.mem) ∧
      (Within (leastValue grids) grids s.mem → misfit S g bg T s'.mem ≤ misfit S g bg T s.mem) := by
  unfold matchFile at h
  simp only [Option.bind_eq_bind, C51_total, matchLow_eq] at h
  rw [Option.bind_eq_some_iff] at h
  obtain ⟨u, h1, h⟩ := h
  rw [Option.bind_eq_some_iff] at h
  obtain ⟨R, h2, h⟩ := h
  obtain ⟨u', g1, g2, -, g4⟩ := get_spec s.mem grids 0 ⟨offset grids, junk⟩ (by simp) ha
  obtain rfl : u' = u := by rw [g1] at h1; exact Option.some.inj h1
  set u0 := clampLow (leastValue grids) (offset grids) u' with hu0
  by_cases hr : 0 < R.1.1
  swap
  · rw [if_neg hr] at h; cases h
  rw [if_pos hr, Option.bind_eq_some_iff] at h
  obtain ⟨U, h3, h⟩ := h
  rw [Option.bind_eq_some_iff] at h
  obtain ⟨e, h4, h⟩ := h
  simp only [Option.some.injEq, Except.ok.injEq, Prod.mk.injEq] at h
  obtain ⟨rfl, rfl⟩ := h
  have hlen : u0.len = offset grids := rfl
  obtain ⟨r1, h', -, r3, r4⟩ := minimise_spec hS hsym hd hT hreset hpos ha _ (fun h v hv => hn.inside _ _ _ _ h v hv hlen) fuel []
    ⟨s.mem, s.eps, 0⟩ R (alike_refl _ _) (by simp) h2
  obtain ⟨⟨gr, b1⟩, b2⟩ := hn.best _ _ _ _ _ _ _ _ r3 hr
  obtain ⟨l1, l2, U1, l3, l4⟩ := r4 _ b1
  dsimp only at l1 l2 l3 l4
  obtain ⟨k1, k2⟩ := alike_set hd l1.ge ha r1 h3
  obtain rfl : U = U1 := by rw [l3] at k2; exact (Option.some.inj k2).symm
  refine ⟨set_within hd l1.ge ha l3 l2, ⟨k1.len, k1.off⟩, h4, by rw [l4], fun hw => ?_⟩
  have hin : ∀ i < offset grids, leastValue grids ≤ u'.get i ∧ u'.get i ≤ 1 := by
    intro k hk
    obtain ⟨pre, m, post, i, he, hi, rfl⟩ := exists_pos grids k hk
    have := g4 pre m post he i hi
    rw [Nat.zero_add] at this
    rw [this]
    exact hw m (by rw [he]; simp) i hi
  have hget : ∀ i < offset grids, u0.get i = u'.get i := fun i hi => if_neg (not_lt.2 (hin i hi).1)
  have hstart := hn.start u0 (fun _ => leastValue grids) (fun _ => 1) (fun _ => tol) hlen (fun i hi => by rw [hget i hi]; exact hin i hi)
  -- the first evaluation is at the present contents
  cases fuel with
  | zero => simp [minimise] at h2
  | succ fuel =>
    rw [minimise, hstart] at h2
    simp only at h2
    cases hc : matchCall S g grids heev T reset (S.nx * S.ny * S.nz) (offset grids) ⟨s.mem, s.eps, 0⟩ u0 with
    | none => rw [hc] at h2; cases h2
    | some p =>
      obtain ⟨v, s1⟩ := p
      rw [hc] at h2
      simp only at h2
      obtain ⟨c1, c2, -, c4⟩ := matchCall_spec hS hsym hd hT hreset hpos ha (s := ⟨s.mem, s.eps, 0⟩) (alike_refl _ _) hlen (fun i hi => by rw [hget i hi]; exact hin i hi) hc
      obtain ⟨-, h'', q1, q2, q3⟩ := minimise_spec hS hsym hd hT hreset hpos ha _ (fun h v hv => hn.inside _ _ _ _ h v hv hlen) fuel
        ([] ++ [(u0, v.1, v.2)]) s1 R c1 (fun e he => by
          rw [List.nil_append, List.mem_singleton] at he
          subst he
          exact ⟨hlen, fun i hi => by rw [hget i hi]; exact hin i hi, s1.mem, c2, c4⟩) h2
      have hbest := (hn.best _ _ _ _ _ _ _ _ q2 hr).2 (u0, v.1, v.2) (q1.subset (by simp))
      dsimp only at hbest
      rw [l4, c4] at hbest
      have hsame : s1.mem = s.mem := by
        obtain ⟨u2, V, d1, d2, d3⟩ := C51_get_set ⟨offset grids, junk⟩ grids s.mem le_rfl ha hd
        rw [g1] at d1
        obtain rfl := Option.some.inj d1
        obtain ⟨W, w1, w2, w3, w4⟩ := set_spec u0 grids 0 s.mem (by omega) ha
        rw [c2] at w1
        obtain rfl := Option.some.inj w1
        obtain ⟨X, x1, x2, x3, x4⟩ := set_spec u' grids 0 s.mem (by rw [g2]; simp) ha
        rw [d2] at x1
        obtain rfl := Option.some.inj x1
        rw [← d3]
        funext b
        by_cases hb : ∀ m ∈ grids, m.arr ≠ b
        · rw [w3 b hb, x3 b hb]
        · push Not at hb
          obtain ⟨m, hm, rfl⟩ := hb
          obtain ⟨pre, post, he⟩ := List.append_of_mem hm
          obtain ⟨y1, y2⟩ := w4 hd pre m post he
          obtain ⟨z1, z2⟩ := x4 hd pre m post he
          have e1 : (s1.mem m.arr).len = (V m.arr).len := by rw [w2, x2]
          have e2 : (s1.mem m.arr).get = (V m.arr).get := by
            funext i
            by_cases hi : i < m.ntot
            · rw [y1 i hi, z1 i hi, hget]
              rw [he, offset_append, offset_cons]
              omega
            · rw [y2 i (by omega), z2 i (by omega)]
          cases hv : s1.mem m.arr
          cases hu : V m.arr
          rw [hv, hu] at e1 e2
          simp only at e1 e2
          rw [e1, e2]
      rw [hsame] at hbest
      exact hbest

/-- An evaluation within the bounds is defined. -/
theorem matchCall_total {S : Shape} (hS : S.Ok) {g : Geom} {bg : V3 ℝ → ℝ} {objs : List Mat} (hda : DistinctArrays (getMaterialGrids objs g.dflt))
    {heev : Heev} {T : Target} (hT : GoodTarget T) {reset : Mem → Option (ℕ → HMat)} (hreset : Pixels S g bg heev reset)
    (hgood : ∀ U, Within (leastValue (getMaterialGrids objs g.dflt)) (getMaterialGrids objs g.dflt) U →
      Allocated U (getMaterialGrids objs g.dflt) → ∀ q : ℕ × ℕ × ℕ, q.1 < S.nx → q.2.1 < S.ny → q.2.2 < S.nz →
        GoodPoint g U objs (pointPos S g.size q) ∧ ∀ e, g.eps U (pointPos S g.size q) = some e → 0 < e)
    (N : ℕ) {s : MatchState} (ha : Allocated s.mem (getMaterialGrids objs g.dflt)) {u : Arr} (hu : u.len = offset (getMaterialGrids objs g.dflt))
    (hb : ∀ i < offset (getMaterialGrids objs g.dflt), leastValue (getMaterialGrids objs g.dflt) ≤ u.get i ∧ u.get i ≤ 1) :
    ∃ p, matchCall S g (getMaterialGrids objs g.dflt) heev T reset N (offset (getMaterialGrids objs g.dflt)) s u = some p ∧
      Allocated p.2.mem (getMaterialGrids objs g.dflt) := by
  obtain ⟨U, h1, h2, -⟩ := set_spec u (getMaterialGrids objs g.dflt) 0 s.mem (by omega) ha
  have ha' : Allocated U (getMaterialGrids objs g.dflt) := fun m hm => by rw [h2]; exact ha m hm
  have hg := hgood U (set_within hda hu.ge ha h1 hb) ha'
  have hvis : ∀ q ∈ visits S, q.pt.1 < S.nx ∧ q.pt.2.1 < S.ny ∧ q.pt.2.2 < S.nz := fun q hq => visit_in_cell hS hq
  obtain ⟨epsInv, hr, hm⟩ := hreset U (fun q hq => (hg q.pt (hvis q hq).1 (hvis q hq).2.1 (hvis q hq).2.2).2)
  obtain ⟨w', f1, -, -⟩ := match_fold_grad hS hda (fun q a b c => (hg q a b c).1) hT (1 / (N : ℝ)) (visits S) (fun q hq => hq) hm 0
    ⟨offset (getMaterialGrids objs g.dflt), fun _ => 0⟩ le_rfl
  suffices h : ∃ e, matchCall S g (getMaterialGrids objs g.dflt) heev T reset N (offset (getMaterialGrids objs g.dflt)) s u =
      some (e, ⟨U, epsInv, s.iter + 1⟩) by
    obtain ⟨e, he⟩ := h
    exact ⟨_, he, ha'⟩
  unfold matchCall matchEps
  simp only [Option.bind_eq_bind, h1, Option.bind_some, hr, if_true, f1]
  exact ⟨_, rfl⟩

/-- C118: the command ends when the optimiser does.  If NLopt asks for at most `K` evaluations and reports success, the command returns; it never
reads or writes outside its arrays. -/
theorem C118_ends (S : Shape) (hS : S.Ok) (g : Geom) (bg : V3 ℝ → ℝ) (objs : List Mat) (hda : DistinctArrays (getMaterialGrids objs g.dflt))
    (heev : Heev) (T : Target) (hT : GoodTarget T) (reset : Mem → Option (ℕ → HMat)) (hreset : Pixels S g bg heev reset)
    (hgood : ∀ U, Within (leastValue (getMaterialGrids objs g.dflt)) (getMaterialGrids objs g.dflt) U →
      Allocated U (getMaterialGrids objs g.dflt) → ∀ q : ℕ × ℕ × ℕ, q.1 < S.nx → q.2.1 < S.ny → q.2.2 < S.nz →
        GoodPoint g U objs (pointPos S g.size q) ∧ ∀ e, g.eps U (pointPos S g.size q) = some e → 0 < e)
    (N : ℕ) (nlopt : Nlopt) (hn : NloptOk (offset (getMaterialGrids objs g.dflt)) nlopt) (tol : ℝ) (K : ℕ)
    (hK : ∀ u lb ub h, (∀ i < offset (getMaterialGrids objs g.dflt), lb i ≤ u.get i ∧ u.get i ≤ ub i) → h.length ≤ K →
      (h.length = K → ∃ r v m, nlopt u lb ub (fun _ => tol) h = .stop r v m) ∧ ∀ r v m, nlopt u lb ub (fun _ => tol) h = .stop r v m → 0 < r)
    (junk : ℕ → ℝ) (s : MatchState) (ha : Allocated s.mem (getMaterialGrids objs g.dflt))
    (htop : ∀ m ∈ getMaterialGrids objs g.dflt, ∀ i < m.nx * m.ny * m.nz, (s.mem m.arr).get i ≤ 1) :
    ∃ r, matchFile S g (getMaterialGrids objs g.dflt) heev reset N nlopt (some T) tol junk (K + 1) s = some (.ok r) := by
  set grids := getMaterialGrids objs g.dflt with hgr
  obtain ⟨u, g1, g2, -, g4⟩ := get_spec s.mem grids 0 ⟨offset grids, junk⟩ (by simp) ha
  have hle : leastValue grids ≤ 1 := by unfold leastValue; split_ifs <;> norm_num
  have hin : ∀ i < offset grids, leastValue grids ≤ (clampLow (leastValue grids) (offset grids) u).get i ∧
      (clampLow (leastValue grids) (offset grids) u).get i ≤ 1 := by
    intro k hk
    obtain ⟨pre, m, post, i, he, hi, rfl⟩ := exists_pos grids k hk
    have := g4 pre m post he i hi
    rw [Nat.zero_add] at this
    have h1 := htop m (by rw [he]; simp) i hi
    rw [← this] at h1
    unfold clampLow
    dsimp only
    split_ifs with h
    · exact ⟨le_rfl, hle⟩
    · exact ⟨not_lt.1 h, h1⟩
  set o := nlopt (clampLow (leastValue grids) (offset grids) u) (fun _ => leastValue grids) (fun _ => 1) (fun _ => tol) with ho
  have key : ∀ (k : ℕ) (h : List (Arr × ℝ × Arr)) (s : MatchState), h.length + k = K → Allocated s.mem grids →
      (∀ e ∈ h, e.1.len = offset grids ∧ ∀ i < offset grids, leastValue grids ≤ e.1.get i ∧ e.1.get i ≤ 1) →
      ∃ R, minimise (matchCall S g grids heev T reset N (offset grids)) o (k + 1) h s = some R ∧ 0 < R.1.1 ∧ Allocated R.2.mem grids ∧
        R.1.2.1.len = offset grids ∧ ∀ i < offset grids, leastValue grids ≤ R.1.2.1.get i ∧ R.1.2.1.get i ≤ 1 := by
    intro k
    induction k with
    | zero =>
      intro h s hl hs hh
      obtain ⟨⟨r, v, m, e⟩, f2⟩ := (hK (clampLow (leastValue grids) (offset grids) u) (fun _ => leastValue grids) (fun _ => 1) h hin (by omega)).imp_left
        (fun f => f (by omega))
      refine ⟨((r, v, m), s), by rw [minimise, ho, e], f2 r v m e, hs, ?_⟩
      obtain ⟨⟨gr, b1⟩, -⟩ := hn.best _ _ _ _ _ _ _ _ e (f2 r v m e)
      exact hh _ b1
    | succ k ih =>
      intro h s hl hs hh
      have f2 := (hK (clampLow (leastValue grids) (offset grids) u) (fun _ => leastValue grids) (fun _ => 1) h hin (by omega)).2
      rw [minimise]
      cases hm : o h with
      | stop r v m =>
        refine ⟨((r, v, m), s), rfl, f2 r v m hm, hs, ?_⟩
        obtain ⟨⟨gr, b1⟩, -⟩ := hn.best _ _ _ _ _ _ _ _ hm (f2 r v m hm)
        exact hh _ b1
      | eval v =>
        obtain ⟨i1, i2⟩ := hn.inside _ _ _ _ _ _ hm rfl
        obtain ⟨p, p1, p2⟩ := matchCall_total hS hda hT hreset hgood N hs i1 i2
        rw [← hgr] at p1
        obtain ⟨p, q⟩ := p
        simp only [p1]
        exact ih _ _ (by rw [List.length_append, List.length_singleton]; omega) p2 (fun e he => by
          rw [List.mem_append, List.mem_singleton] at he
          rcases he with he | rfl
          · exact hh e he
          · exact ⟨i1, i2⟩)
  obtain ⟨R, r1, r2, r3, r4, r5⟩ := key K [] ⟨s.mem, s.eps, 0⟩ (by simp) ha (by simp)
  obtain ⟨U, u1, u2, -⟩ := set_spec R.1.2.1 grids 0 R.2.mem (by omega) r3
  have ha' : Allocated U grids := fun m hm => by rw [u2]; exact r3 m hm
  have hg := hgood U (set_within hda r4.ge r3 u1 r5) ha'
  have hvis : ∀ q ∈ visits S, q.pt.1 < S.nx ∧ q.pt.2.1 < S.ny ∧ q.pt.2.2 < S.nz := fun q hq => visit_in_cell hS hq
  obtain ⟨epsInv, hr, -⟩ := hreset U (fun q hq => (hg q.pt (hvis q hq).1 (hvis q hq).2.1 (hvis q hq).2.2).2)
  refine ⟨(Real.sqrt R.1.2.2, ⟨U, epsInv, R.2.iter⟩), ?_⟩
  unfold matchFile
  simp only [Option.bind_eq_bind, C51_total, matchLow_eq, g1, Option.bind_some]
  rw [← ho, r1, Option.bind_some, if_pos r2, u1, Option.bind_some, hr, Option.bind_some]

/-- C118 is false for grids with a value above 1 (values below the bound are raised to it, mpb/material_grid.c:1019, but values above are left, and
NLopt refuses them): the command fails, whatever the file. -/
theorem C118_above_refuted (S : Shape) (g : Geom) (grids : List MGrid) (heev : Heev) (T : Target) (reset : Mem → Option (ℕ → HMat)) (N : ℕ)
    (nlopt : Nlopt) (hn : NloptOk (offset grids) nlopt) (tol : ℝ) (junk : ℕ → ℝ) (fuel : ℕ) (s : MatchState) (ha : Allocated s.mem grids)
    (m : MGrid) (hm : m ∈ grids) (i : ℕ) (hi : i < m.nx * m.ny * m.nz) (h : 1 < (s.mem m.arr).get i) :
    matchFile S g grids heev reset N nlopt (some T) tol junk (fuel + 1) s = some (.error ()) := by
  obtain ⟨u, g1, g2, -, g4⟩ := get_spec s.mem grids 0 ⟨offset grids, junk⟩ (by simp) ha
  obtain ⟨pre, post, he⟩ := List.append_of_mem hm
  have hv := g4 pre m post he i hi
  rw [Nat.zero_add] at hv
  have hle : leastValue grids ≤ 1 := by unfold leastValue; split_ifs <;> norm_num
  obtain ⟨r, v, mm, e, hr⟩ := hn.refuses (clampLow (leastValue grids) (offset grids) u) (fun _ => leastValue grids) (fun _ => 1) (fun _ => tol)
    ⟨offset pre + i, by rw [he, offset_append, offset_cons]; have : i < m.ntot := hi; omega, Or.inr (by
      unfold clampLow
      dsimp only
      rw [hv, if_neg (by linarith)]
      exact h)⟩
  unfold matchFile
  simp only [Option.bind_eq_bind, C51_total, matchLow_eq, g1, Option.bind_some]
  rw [minimise, e]
  simp only [Option.bind_some]
  rw [if_neg (by omega)]

/-- An optimiser that tries the starting point and the upper bounds and returns the better of the two. -/
noncomputable def twoPoints (n : ℕ) : Nlopt := fun u lb ub _ h =>
  open Classical in
  if ∃ i < n, u.get i < lb i ∨ ub i < u.get i then .stop (-2) u 0
  else match h with
    | [] => .eval u
    | [_] => .eval ⟨n, ub⟩
    | [a, b] => if b.2.1 < a.2.1 then .stop 4 b.1 b.2.1 else .stop 4 a.1 a.2.1
    | _ => .stop (-1) u 0

theorem twoPoints_inside {n : ℕ} {u : Arr} {lb ub : ℕ → ℝ} (h : ∀ i < n, lb i ≤ u.get i ∧ u.get i ≤ ub i) :
    ¬ ∃ i < n, u.get i < lb i ∨ ub i < u.get i := by
  rintro ⟨i, hi, h' | h'⟩
  · exact absurd (h i hi).1 (not_le.2 h')
  · exact absurd (h i hi).2 (not_le.2 h')

theorem twoPoints_ok (n : ℕ) : NloptOk n (twoPoints n) where
  refuses := fun u lb ub tol h => ⟨-2, u, 0, by unfold twoPoints; rw [if_pos h], by norm_num⟩
  start := fun u lb ub tol _ h => by unfold twoPoints; rw [if_neg (twoPoints_inside h)]
  inside := by
    intro u lb ub tol h v hv hu
    unfold twoPoints at hv
    split_ifs at hv with hc
    have hin : ∀ i < n, lb i ≤ u.get i ∧ u.get i ≤ ub i := by
      push Not at hc
      exact hc
    match h, hv with
    | [], hv => cases hv; exact ⟨hu, hin⟩
    | [_], hv => cases hv; exact ⟨rfl, fun i hi => ⟨(hin i hi).1.trans (hin i hi).2, le_rfl⟩⟩
    | [a, b], hv => simp only at hv; split_ifs at hv
    | _ :: _ :: _ :: _, hv => cases hv
  best := by
    intro u lb ub tol h r v m hv hr
    unfold twoPoints at hv
    split_ifs at hv with hc
    · cases hv; omega
    match h, hv with
    | [], hv => cases hv
    | [_], hv => cases hv
    | [a, b], hv =>
      simp only at hv
      split_ifs at hv with hab
      · cases hv
        refine ⟨⟨b.2.2, by simp⟩, fun e he => ?_⟩
        simp only [List.mem_cons, List.not_mem_nil, or_false] at he
        rcases he with rfl | rfl
        · exact hab.le
        · exact le_rfl
      · cases hv
        refine ⟨⟨a.2.2, by simp⟩, fun e he => ?_⟩
        simp only [List.mem_cons, List.not_mem_nil, or_false] at he
        rcases he with rfl | rfl
        · exact le_rfl
        · exact not_lt.1 hab
    | _ :: _ :: _ :: _, hv => cases hv; omega

theorem twoPoints_ends (n : ℕ) (tol : ℝ) : ∀ u lb ub h, (∀ i < n, lb i ≤ u.get i ∧ u.get i ≤ ub i) → h.length ≤ 2 →
    (h.length = 2 → ∃ r v m, twoPoints n u lb ub (fun _ => tol) h = .stop r v m) ∧
      ∀ r v m, twoPoints n u lb ub (fun _ => tol) h = .stop r v m → 0 < r := by
  intro u lb ub h hin hl
  unfold twoPoints
  rw [if_neg (twoPoints_inside hin)]
  match h, hl with
  | [], _ => exact ⟨fun h => by simp at h, fun r v m h => by cases h⟩
  | [_], _ => exact ⟨fun h => by simp at h, fun r v m h => by cases h⟩
  | [a, b], _ =>
    simp only
    split_ifs
    · exact ⟨fun _ => ⟨_, _, _, rfl⟩, fun r v m h => by cases h; norm_num⟩
    · exact ⟨fun _ => ⟨_, _, _, rfl⟩, fun r v m h => by cases h; norm_num⟩
  | _ :: _ :: _ :: _, hl => simp only [List.length_cons] at hl; omega

/-- A cell filled by one grid with one value `u`: `ε = 1 + 11 u`, whatever the kind of the grid. -/
noncomputable def geomK (kind : Kind) : Geom :=
  ⟨fun _ => [(.grid (grid1 kind), ⟨1 / 2, 1 / 2, 1 / 2⟩)], .medium, ⟨1, 1, 1⟩, ⟨true, true, true⟩, id⟩

theorem geomK_grids (kind : Kind) : getMaterialGrids [.grid (grid1 kind)] (geomK kind).dflt = [grid1 kind] := by
  simp [getMaterialGrids, addGrid, geomK]

theorem geomK_layer {kind : Kind} {U : Mem} (h : Allocated U [grid1 kind]) : GoodLayer U (grid1 kind, ⟨1 / 2, 1 / 2, 1 / 2⟩) := by
  have := h (grid1 kind) (by simp)
  simp only [MGrid.ntot, grid1, Nat.mul_one] at this
  constructor <;> simp [grid1] <;> first | exact this | norm_num

theorem geomK_eps {kind : Kind} (hk : kind ≠ .uMin) {U : Mem} (h : Allocated U [grid1 kind]) (p : V3 ℝ) :
    (geomK kind).eps U p = some ((U 0).get 0 * 11 + 1) := by
  change gridEps U [(.grid (grid1 kind), ⟨1 / 2, 1 / 2, 1 / 2⟩)] .medium (defaultPos ⟨true, true, true⟩ p ⟨1, 1, 1⟩) = _
  have hv : visit (grid1 kind) .medium (defaultPos ⟨true, true, true⟩ p ⟨1, 1, 1⟩) [(Mat.grid (grid1 kind), ⟨1 / 2, 1 / 2, 1 / 2⟩)] =
      some [(grid1 kind, ⟨1 / 2, 1 / 2, 1 / 2⟩)] := by
    simp [visit, visitRest, compatible]
  have hm := mapM_gridVal (U := U) [(grid1 kind, ⟨1 / 2, 1 / 2, 1 / 2⟩)] (by
    intro l hl
    rw [List.mem_singleton] at hl
    subst hl
    exact geomK_layer h)
  unfold gridEps matgridVal
  simp only [hv, hm, Option.bind_eq_bind, Option.bind_some, Option.pure_def, Option.map_some, List.map_cons,
    List.map_nil, lval_grid1]
  cases kind
  · exact absurd rfl hk
  all_goals
    simp [combineKind, grid1]
    norm_num

theorem geomK_good {kind : Kind} (hk : kind ≠ .uMin) {U : Mem} (h : Allocated U [grid1 kind]) (h0 : 0 ≤ (U 0).get 0) (h1 : kind = .uProd → (U 0).get 0 ≠ 0)
    (p : V3 ℝ) : GoodPoint (geomK kind) U [.grid (grid1 kind)] p where
  objs := by
    intro x hx
    simp only [geomK, List.mem_singleton] at hx
    simp [hx]
  layers := by
    intro mg q hx
    simp only [geomK, List.mem_singleton, Prod.mk.injEq, Mat.grid.injEq] at hx
    obtain ⟨rfl, rfl⟩ := hx
    exact geomK_layer h
  dflt := by intro mg h; cases h
  notSelf := by intro q rest h; simp [geomK] at h
  smooth := by
    intro mg ls us hg h2 h3
    have : mg = grid1 kind := by
      unfold geomK at hg
      simp [gradGrid] at hg
      exact hg.symm
    subst this
    have hv : visit (grid1 kind) (geomK kind).dflt (defaultPos (geomK kind).noSize p (geomK kind).size) ((geomK kind).look p) =
        some [(grid1 kind, ⟨1 / 2, 1 / 2, 1 / 2⟩)] := by
      simp [visit, visitRest, compatible, geomK]
    rw [hv] at h2
    obtain rfl := Option.some.inj h2
    rw [mapM_gridVal _ (fun l hl => by rw [List.mem_singleton] at hl; subst hl; exact geomK_layer h), List.map_singleton, lval_grid1] at h3
    obtain rfl := Option.some.inj h3
    cases kind with
    | uMin => exact absurd rfl hk
    | uProd => intro u hu; rw [List.mem_singleton] at hu; subst hu; exact h1 rfl
    | uSum => trivial
  nonzero := by
    intro e he
    rw [geomK_eps hk h] at he
    rw [← Option.some.inj he]
    positivity

theorem geomK_sym {kind : Kind} (bg : ℝ) : SymGeom shape1 (geomK kind) (fun _ => bg) := fun U q _ _ _ => ⟨rfl, rfl⟩

theorem geomK_resolved (kind : Kind) : Resolved shape1 (geomK kind) where
  size := by simp [geomK]
  nx := by simp [geomK, shape1]
  ny := by simp [geomK, shape1]
  nz := by simp [geomK, shape1]
  shift := fun p _ _ _ _ _ _ => rfl

theorem mem1_allocK (kind : Kind) (v : ℝ) : Allocated (mem1 v) [grid1 kind] := by
  intro g hg
  rw [List.mem_singleton] at hg
  subst hg
  simp [mem1, MGrid.ntot, grid1]

theorem leastValue_grid1 (kind : Kind) : leastValue [grid1 kind] = if kind = .uProd then 1e-4 else 0 := by
  unfold leastValue
  simp [grid1]

theorem within_grid1 {kind : Kind} {low : ℝ} {U : Mem} : Within low [grid1 kind] U ↔ low ≤ (U 0).get 0 ∧ (U 0).get 0 ≤ 1 := by
  unfold Within
  simp [grid1]

/-- A file with one value `v`. -/
def file1 (v : ℝ) : Target := ⟨⟨1, fun _ => v⟩, 1, 1, 1⟩

theorem file1_good (v : ℝ) : GoodTarget (file1 v) := ⟨one_pos, one_pos, one_pos, le_rfl⟩

theorem misfit_geomK {kind : Kind} (hk : kind ≠ .uMin) {U : Mem} (h : Allocated U [grid1 kind]) (v : ℝ) :
    misfit shape1 (geomK kind) (fun _ => 1) (file1 v) U = ((U 0).get 0 * 11 + 1 - v) ^ 2 := by
  have ht : target shape1 (file1 v) (0, 0, 0) = v := C49_pixel ⟨1, fun _ => v⟩ 1 1 1 1 0 0 0 (by omega) (by omega) (by omega)
  unfold misfit cellSum shown
  simp only [geomK_eps hk h, Option.getD_some]
  have hl : loop3 1 1 1 = [(0, 0, 0)] := rfl
  change 1 / ((1 * 1 * 1 : ℕ) : ℝ) * (List.map _ (loop3 1 1 1)).sum = _
  rw [hl, List.map_singleton, List.sum_singleton, ht]
  simp

/-- Non-vacuity of `C118_result_partial` and `C118_ends`: a cell of one grid point with `ε = 1 + 11 u`, a file with the value 12, `u = 0`, and the
optimiser `twoPoints`.  The command returns. -/
example (other : V3 ℝ → HMat × HMat) (heev : Heev) (hh : HeevOk heev) (hbg : ∀ p, meanMedium heev (other p).2 = some 1) (e : ℕ → HMat) :
    ∃ printed s', matchFile shape1 (geomK .uSum) [grid1 .uSum] heev (resetEps (geomK .uSum) other md1 args1) 1 (twoPoints 1) (some (file1 12)) 1e-4
      (fun _ => 7) 3 ⟨mem1 0, e, 5⟩ = some (.ok (printed, s')) ∧ 0 ≤ (s'.mem 0).get 0 ∧ (s'.mem 0).get 0 ≤ 1 ∧
        ((s'.mem 0).get 0 * 11 + 1 - 12) ^ 2 ≤ 121 := by
  have hP := pixels_reset shape1_ok rfl (geomK_resolved .uSum) hh other (fun _ => 1) hbg md1 ⟨rfl, rfl, rfl⟩ args1 args1_mesh
  have hg := geomK_grids .uSum
  have hpos : ∀ U, Within (leastValue [grid1 .uSum]) [grid1 .uSum] U → 0 ≤ (U 0).get 0 := by
    intro U hU
    rw [within_grid1, leastValue_grid1] at hU
    simpa using hU.1
  have h1 := C118_ends shape1 shape1_ok (geomK .uSum) (fun _ => 1) [.grid (grid1 .uSum)] (by rw [hg]; simp [DistinctArrays]) heev (file1 12) (file1_good 12) _ hP
    (by
      rw [hg]
      intro U hU ha q _ _ _
      have h0 := hpos U hU
      refine ⟨geomK_good (by decide) ha h0 (fun h => by cases h) _, fun e he => ?_⟩
      rw [geomK_eps (by decide) ha] at he
      rw [← Option.some.inj he]
      positivity) 1 (twoPoints 1) (by rw [hg]; exact twoPoints_ok 1) 1e-4 2 (by rw [hg]; exact twoPoints_ends 1 _) (fun _ => 7) ⟨mem1 0, e, 5⟩
    (by rw [hg]; exact mem1_allocK _ 0) (by
      rw [hg]
      intro m _ i _
      simp [mem1])
  rw [hg] at h1
  obtain ⟨⟨printed, s'⟩, h1⟩ := h1
  obtain ⟨r1, ⟨r2, -⟩, -, -, r5⟩ := C118_result_partial shape1 shape1_ok (geomK .uSum) (fun _ => 1) (fun _ => geomK_sym 1) [grid1 .uSum]
    (by simp [DistinctArrays]) heev (file1 12) (file1_good 12) _ hP (fun U hU ha q _ e he => by
      rw [geomK_eps (by decide) ha] at he
      have h0 := hpos U hU
      rw [← Option.some.inj he]
      positivity) (twoPoints 1) (twoPoints_ok 1) 1e-4 (fun _ => 7) 3 ⟨mem1 0, e, 5⟩ s' (mem1_allocK _ 0) printed h1
  have hw : Within (leastValue [grid1 .uSum]) [grid1 .uSum] (mem1 0) := by
    rw [within_grid1, leastValue_grid1]
    simp [mem1]
  have r6 := r5 hw
  rw [misfit_geomK (by decide) (fun m hm => by rw [r2]; exact mem1_allocK _ 0 m hm), misfit_geomK (by decide) (mem1_allocK _ 0)] at r6
  refine ⟨printed, s', h1, hpos _ r1, (within_grid1.1 r1).2, r6.trans ?_⟩
  simp [mem1]
  norm_num

/-- C118 is false for a grid of the kind U_PROD whose values are below 0.0001 (they are raised before NLopt starts, mpb/material_grid.c:1013-1019):
the cell filled by a grid with `ε = 1 + 11 u` and `u = 0` matches a file with the value 1 exactly; after any run that returns it does not. -/
theorem C118_uprod_refuted (other : V3 ℝ → HMat × HMat) (heev : Heev) (hh : HeevOk heev) (hbg : ∀ p, meanMedium heev (other p).2 = some 1)
    (nlopt : Nlopt) (hn : NloptOk 1 nlopt) (tol : ℝ) (junk : ℕ → ℝ) (fuel : ℕ) (e : ℕ → HMat) (printed : ℝ) (s' : MatchState)
    (h : matchFile shape1 (geomK .uProd) [grid1 .uProd] heev (resetEps (geomK .uProd) other md1 args1) 1 nlopt (some (file1 1)) tol junk fuel
      ⟨mem1 0, e, 0⟩ = some (.ok (printed, s'))) :
    misfit shape1 (geomK .uProd) (fun _ => 1) (file1 1) (mem1 0) = 0 ∧ 0 < misfit shape1 (geomK .uProd) (fun _ => 1) (file1 1) s'.mem := by
  have hP := pixels_reset shape1_ok rfl (geomK_resolved .uProd) hh other (fun _ => 1) hbg md1 ⟨rfl, rfl, rfl⟩ args1 args1_mesh
  refine ⟨?_, ?_⟩
  · rw [misfit_geomK (by decide) (mem1_allocK _ 0)]
    simp [mem1]
  · obtain ⟨h1, ⟨h2, -⟩, -⟩ := C118_result_partial shape1 shape1_ok (geomK .uProd) (fun _ => 1) (fun _ => geomK_sym 1) [grid1 .uProd] (by simp [DistinctArrays])
      heev (file1 1) (file1_good 1) _ hP (fun U hU ha q _ e he => by
        rw [geomK_eps (by decide) ha] at he
        rw [within_grid1, leastValue_grid1] at hU
        rw [← Option.some.inj he]
        have := hU.1
        norm_num at this
        linarith) nlopt hn tol junk fuel ⟨mem1 0, e, 0⟩ s' (mem1_allocK _ 0) printed h
    rw [within_grid1, leastValue_grid1] at h1
    rw [misfit_geomK (by decide) (fun m hm => by rw [h2]; exact mem1_allocK _ 0 m hm)]
    have := h1.1
    norm_num at this
    have : 0 < (s'.mem 0).get 0 * 11 + 1 - 1 := by linarith
    positivity

end Mpb.MatGrid

import Verif.Session.Spec

/-!
# Property C44: field commands never act on missing or stale data
-/

namespace Mpb.Session

def letters : List Char := "dhbecvCDHBnmR".toList

/-- The globals of the program represent the state the user sees. -/
structure Rep (s : Spec) (t : St) : Prop where
  md : t.md = s.sys
  nb : t.nb = s.nb
  k : t.k = s.k
  nsol : t.nsol = s.nsol
  sol : t.sol = s.solved
  ksolved : s.k ≠ 0 → s.solved = true
  solved : s.solved = true → ∃ m, s.sys = some m ∧ t.freqs = m.p
  unloaded : s.loaded = none → t.cur = false ∧ t.type = '-'
  loaded : ∀ f, s.loaded = some f → t.cur = true ∧ t.type = f.letter ∧ t.buf = f.data s.withMu ∧ s.sys ≠ none ∧ f.letter ∈ letters ∧
    (f.letter ≠ 'n' → f.letter ≠ 'm' → ∀ b, f.band = some b → t.band = b ∧ 1 ≤ b ∧ s.solved = true ∧ ∀ m, s.sys = some m → b ≤ m.p)

theorem rep_init : Rep {} {} := by
  constructor <;> simp [Spec.withMu]

theorem upper_dhb (c : Char) (h : c ∈ "dhb".toList) : c.toUpper ∈ "DHB".toList ∧ c.toUpper ≠ 'n' ∧ c.toUpper ≠ 'm' := by
  have : c = 'd' ∨ c = 'h' ∨ c = 'b' := by simpa using h
  rcases this with rfl | rfl | rfl <;> decide +kernel

theorem mem_vec (c : Char) : c ∈ vecChars ↔ c ∈ "dhbecv".toList := Iff.rfl

theorem letters_iff (c : Char) : c ∈ vecChars ++ csChars ++ rsChars ↔ c ∈ letters := by
  have h : vecChars ++ csChars ++ rsChars = letters := by decide +kernel
  rw [h]

/-- Commands that need the current field, when the program tests for the letters and does something to the state. -/
theorem refines_onField {s : Spec} {t : St} (hr : Rep s t) (cs : List Char) (g : St → Option (St × Resp)) (f : Fld → Spec × Resp)
    (hbad : (!t.cur ∨ t.type ∉ cs) → g t = some (t, .err))
    (hok : ∀ x, s.loaded = some x → x.letter ∈ cs → ∃ t', g t = some (t', (f x).2) ∧ Rep (f x).1 t') :
    ∃ t', g t = some (t', (s.onField cs f).2) ∧ Rep (s.onField cs f).1 t' := by
  unfold Spec.onField
  cases hl : s.loaded with
  | none =>
    refine ⟨t, hbad (Or.inl ?_), hr⟩
    rw [(hr.unloaded hl).1]; rfl
  | some x =>
    obtain ⟨h1, h2, -⟩ := hr.loaded x hl
    simp only
    split_ifs with hc
    · exact hok x hl hc
    · exact ⟨t, hbad (Or.inr (by rw [h2]; exact hc)), hr⟩

theorem rep_loaded {s : Spec} {t : St} (hr : Rep s t) (f : Fld) (t' : St) (hmd : t'.md = t.md) (hnb : t'.nb = t.nb)
    (hk : t'.k = t.k) (hn : (t'.nsol, t'.sol) = (t.nsol, t.sol)) (hfr : t'.freqs = t.freqs)
    (hload : t'.cur = true ∧ t'.type = f.letter ∧ t'.buf = f.data s.withMu ∧ s.sys ≠ none ∧ f.letter ∈ letters ∧
      (f.letter ≠ 'n' → f.letter ≠ 'm' →
        ∀ b, f.band = some b → t'.band = b ∧ 1 ≤ b ∧ s.solved = true ∧ ∀ m, s.sys = some m → b ≤ m.p)) :
    Rep { s with loaded := some f } t' := by
  constructor
  · rw [hmd]; exact hr.md
  · rw [hnb]; exact hr.nb
  · rw [hk]; exact hr.k
  · exact (congrArg Prod.fst hn).trans hr.nsol
  · exact (congrArg Prod.snd hn).trans hr.sol
  · exact hr.ksolved
  · rw [hfr]; exact hr.solved
  · intro h; simp at h
  · intro g hg
    simp only [Option.some.injEq] at hg
    subst hg
    exact hload

theorem rep_unloaded {s : Spec} {t : St} (hr : Rep s t) (t' : St) (hmd : t'.md = t.md) (hnb : t'.nb = t.nb)
    (hk : t'.k = t.k) (hn : (t'.nsol, t'.sol) = (t.nsol, t.sol)) (hfr : t'.freqs = t.freqs) (hc : t'.cur = false) (ht : t'.type = '-') :
    Rep { s with loaded := none } t' := by
  constructor
  · rw [hmd]; exact hr.md
  · rw [hnb]; exact hr.nb
  · rw [hk]; exact hr.k
  · exact (congrArg Prod.fst hn).trans hr.nsol
  · exact (congrArg Prod.snd hn).trans hr.sol
  · exact hr.ksolved
  · rw [hfr]; exact hr.solved
  · intro _; exact ⟨hc, ht⟩
  · intro g hg; simp at hg

theorem refines_get {s : Spec} {t : St} (hr : Rep s t) (c : Char) (hc : c ∈ "dhb".toList) (b : ℤ) :
    ∃ t', getField c b t = some (t', (s.get b (.mode c)).2) ∧ Rep (s.get b (.mode c)).1 t' := by
  have hcc : c = 'd' ∨ c = 'h' ∨ c = 'b' := by simpa using hc
  cases hs : s.sys with
  | none =>
    have hm : t.md = none := hr.md.trans hs
    have e1 : getField c b t = some (t, .err) := by unfold getField; rw [hm]
    have e2 : s.get b (.mode c) = (s, .err) := by unfold Spec.get; rw [hs]
    rw [e1, e2]; exact ⟨t, rfl, hr⟩
  | some m =>
    have hm : t.md = some m := hr.md.trans hs
    by_cases hk : s.k = 0
    · have e1 : getField c b t = some (t, .err) := by unfold getField; rw [hm]; simp only; rw [if_pos (hr.k.trans hk)]
      have e2 : s.get b (.mode c) = (s, .err) := by unfold Spec.get; rw [hs]; simp only; rw [if_neg (by tauto)]
      rw [e1, e2]; exact ⟨t, rfl, hr⟩
    have hk' : t.k ≠ 0 := by rw [hr.k]; exact hk
    by_cases hb : b < 1 ∨ b > m.p
    · have e1 : getField c b t = some (t, .err) := by unfold getField; rw [hm]; simp only; rw [if_neg hk', if_pos hb]
      have e2 : s.get b (.mode c) = (s, .err) := by unfold Spec.get; rw [hs]; simp only; rw [if_neg (by omega)]
      rw [e1, e2]; exact ⟨t, rfl, hr⟩
    have hsol := hr.ksolved hk
    obtain ⟨m', hm', hf⟩ := hr.solved hsol
    rw [hs] at hm'
    obtain rfl : m = m' := by simpa using hm'
    have h2 : ¬ (c = 'd' ∧ ¬ b ≤ (t.freqs : ℤ)) := by rw [hf]; omega
    have h3 : s.k ≠ 0 ∧ 1 ≤ b ∧ b ≤ (m.p : ℤ) := ⟨hk, by omega, by omega⟩
    have e1 : getField c b t = some ({ t with cur := true, band := b, type := c, buf := .mode c b.toNat t.nsol }, .ok) := by
      unfold getField; rw [hm]; simp only; rw [if_neg hk', if_neg hb, if_neg h2]
    have e2 : s.get b (.mode c) = ({ s with loaded := some (.mode c b.toNat s.nsol) }, .ok) := by
      unfold Spec.get; rw [hs]; simp only; rw [if_pos h3]
    rw [e1, e2]
    refine ⟨_, rfl, ?_⟩
    refine rep_loaded hr (.mode c b.toNat s.nsol) _ rfl rfl rfl rfl rfl ⟨rfl, rfl, ?_, ?_, ?_, ?_⟩
    · simp only [Fld.data, hr.nsol]
    · rw [hs]; simp
    · show c ∈ letters
      rcases hcc with rfl | rfl | rfl <;> decide +kernel
    · intro _ _ b' hb'
      simp only [Fld.band, Option.some.injEq] at hb'
      subst hb'
      refine ⟨by simp only; omega, by omega, hsol, ?_⟩
      intro m' hm'
      rw [hs] at hm'
      obtain rfl : m = m' := by simpa using hm'
      omega

theorem withMu_eq {s : Spec} {m : Mdata} (h : s.sys = some m) : s.withMu = m.mu := by
  unfold Spec.withMu; rw [h]

theorem sys_some {s : Spec} (h : s.sys ≠ none) : ∃ m, s.sys = some m := Option.ne_none_iff_exists'.1 h

theorem vec_ne {c : Char} (hc : c ∈ "dhbecv".toList) : c ≠ 'n' ∧ c ≠ 'm' := by
  constructor <;> (intro h; rw [h] at hc; revert hc; decide +kernel)

theorem step_refines (s : Spec) (t : St) (c : Cmd) (hr : Rep s t) (ha : Allowed s c) :
    ∃ t', step t c = some (t', (s.step c).2) ∧ Rep (s.step c).1 t' := by
  have hmd := hr.md
  cases c with
  | setNumBands n =>
    refine ⟨_, rfl, ?_⟩
    exact ⟨hr.md, rfl, hr.k, hr.nsol, hr.sol, hr.ksolved, hr.solved, hr.unloaded, hr.loaded⟩
  | init mu =>
    refine ⟨_, rfl, ?_⟩
    constructor
    · simp only [Spec.step, reset, hr.nb]
    · exact hr.nb
    · rfl
    · exact hr.nsol
    · rfl
    · intro h; exact absurd rfl h
    · intro h; simp [Spec.step] at h
    · intro _; exact ⟨rfl, rfl⟩
    · intro f hf; simp [Spec.step] at hf
  | setParity =>
    cases hs : s.sys with
    | none =>
      have e1 : step t .setParity = some (t, .err) := by simp only [step]; rw [hmd, hs]
      have e2 : s.step .setParity = (s, .err) := by simp only [Spec.step]; rw [hs]
      rw [e1, e2]; exact ⟨t, rfl, hr⟩
    | some m =>
      have hm : t.md = some m := hmd.trans hs
      have e1 : step t .setParity = some ({ t with k := 0 }, .ok) := by simp only [step]; rw [hm]
      have e2 : s.step .setParity = ({ s with k := 0 }, .ok) := by simp only [Spec.step]; rw [hs]
      rw [e1, e2]
      exact ⟨_, rfl, hr.md, hr.nb, rfl, hr.nsol, hr.sol, fun h => absurd rfl h, hr.solved, hr.unloaded, hr.loaded⟩
  | setKIndex n =>
    refine ⟨_, rfl, ?_⟩
    simp only [Allowed] at ha
    refine ⟨hr.md, hr.nb, rfl, hr.nsol, hr.sol, ?_, hr.solved, hr.unloaded, hr.loaded⟩
    intro h
    rcases ha with ha | ha
    · exact absurd ha h
    · exact ha
  | solve =>
    simp only [Allowed] at ha
    by_cases h0 : s.nb = 0
    · have h0' : t.nb = 0 := hr.nb.trans h0
      have e1 : step t .solve = some (reset t, .ok) := by
        simp only [step]; unfold solve; exact if_pos h0'
      have e2 : s.step .solve = ({ s with loaded := none }, .ok) := by simp only [Spec.step]; rw [if_pos h0]
      rw [e1, e2]
      exact ⟨_, rfl, rep_unloaded hr _ rfl rfl rfl rfl rfl rfl rfl⟩
    · have h0' : ¬ t.nb = 0 := by rw [hr.nb]; exact h0
      cases hs : s.sys with
      | none =>
        have hm : t.md = none := hmd.trans hs
        have e1 : step t .solve = some (reset t, .err) := by
          simp only [step]; unfold solve
          refine (if_neg (show ¬ (reset t).nb = 0 from h0')).trans ?_
          rw [show (reset t).md = none from hm]
        have e2 : s.step .solve = (s, .err) := by simp only [Spec.step]; rw [if_neg h0, hs]
        rw [e1, e2]
        refine ⟨_, rfl, ?_⟩
        have hl : s.loaded = none := by
          cases h : s.loaded with
          | none => rfl
          | some f => exact absurd hs (hr.loaded f h).2.2.2.1
        have := rep_unloaded hr (reset t) rfl rfl rfl rfl rfl rfl rfl
        rw [← hl] at this
        exact this
      | some m =>
        have hm : t.md = some m := hmd.trans hs
        have e1 : step t .solve = some ({ reset t with buf := .junk, freqs := t.nb, nsol := t.nsol + 1, sol := true, k := t.k + 1 }, .ok) := by
          simp only [step]; unfold solve
          refine (if_neg (show ¬ (reset t).nb = 0 from h0')).trans ?_
          rw [show (reset t).md = some m from hm]
          rfl
        have e2 : s.step .solve = ({ s with loaded := none, solved := true, nsol := s.nsol + 1, k := s.k + 1 }, .ok) := by
          simp only [Spec.step]; rw [if_neg h0, hs]
        rw [e1, e2]
        refine ⟨_, rfl, ?_⟩
        constructor
        · exact hr.md
        · exact hr.nb
        · simp only [hr.k]
        · simp only [hr.nsol]
        · rfl
        · intro _; rfl
        · intro _; exact ⟨m, hs, hr.nb.trans (ha m hs)⟩
        · intro _; exact ⟨rfl, rfl⟩
        · intro f hf; simp at hf
  | getD b => exact refines_get hr 'd' (by decide +kernel) b
  | getH b => exact refines_get hr 'h' (by decide +kernel) b
  | getB b => exact refines_get hr 'b' (by decide +kernel) b
  | getE b =>
    simp only [Allowed] at ha
    obtain ⟨t1, h1, r1⟩ := refines_get hr 'd' (by decide +kernel) b
    simp only [step, getE, h1, Option.bind_some]
    by_cases hg : ∃ m, s.sys = some m ∧ s.k ≠ 0 ∧ 1 ≤ b ∧ b ≤ (m.p : ℤ)
    · obtain ⟨m, hs, hg⟩ := hg
      have e1 : s.get b (.mode 'd') = ({ s with loaded := some (.mode 'd' b.toNat s.nsol) }, .ok) := by
        unfold Spec.get; rw [hs]; simp only; rw [if_pos hg]
      have e2 : s.step (.getE b) = ({ s with loaded := some (.E (.mode 'd' b.toNat s.nsol)) }, .ok) := by
        simp only [Spec.step]; unfold Spec.get; rw [hs]; simp only; rw [if_pos hg]
      rw [e1] at r1
      rw [e1, e2]
      obtain ⟨l1, l2, l3, l4, l5, l6⟩ := r1.loaded _ rfl
      have hmd1 : t1.md = some m := by rw [r1.md]; exact hs
      have e3 : eFromD t1 = some ({ t1 with type := 'e', buf := .eOf t1.buf }, .ok) := by
        unfold eFromD
        rw [if_neg (by rw [l1, l2]; simp [Fld.letter]), hmd1]
      refine ⟨{ t1 with type := 'e', buf := .eOf t1.buf }, ?_, ?_⟩
      · rw [e3]; simp
      · have := rep_loaded r1 (.E (.mode 'd' b.toNat s.nsol)) { t1 with type := 'e', buf := .eOf t1.buf } rfl rfl rfl rfl rfl
          ⟨l1, rfl, by simp only [Fld.data, l3], l4, show 'e' ∈ letters by decide +kernel, fun _ _ => l6 (by simp [Fld.letter]) (by simp [Fld.letter])⟩
        exact this
    · have e : ∀ mk : ℕ → ℕ → Fld, s.get b mk = (s, .err) := by
        intro mk
        unfold Spec.get
        cases hs : s.sys with
        | none => rfl
        | some m => simp only; rw [if_neg (fun h => hg ⟨m, hs, h⟩)]
      have e2 : s.step (.getE b) = (s, .err) := e fun b n => .E (.mode 'd' b n)
      rw [e] at r1
      rw [e, e2]
      refine ⟨t1, ?_, r1⟩
      have hnd : !t1.cur ∨ t1.type ≠ 'd' := by
        cases hl : s.loaded with
        | none => left; rw [(r1.unloaded hl).1]; rfl
        | some f =>
          right
          rw [(r1.loaded f hl).2.1]
          rcases ha with ha | ha
          · exact absurd ha hg
          · exact ha f hl
      have e3 : eFromD t1 = some (t1, .err) := by unfold eFromD; rw [if_pos hnd]
      rw [e3]
      rfl
  | eFromD =>
    refine refines_onField hr ['d'] eFromD _ ?_ ?_
    · intro h
      unfold eFromD
      rw [if_pos (by simpa using h)]
    · intro x hx hc
      obtain ⟨l1, l2, l3, l4, l5, l6⟩ := hr.loaded x hx
      obtain ⟨m, hs⟩ := sys_some l4
      have hd : x.letter = 'd' := by simpa using hc
      refine ⟨{ t with type := 'e', buf := .eOf t.buf }, ?_, ?_⟩
      · unfold eFromD
        rw [if_neg (by rw [l1, l2, hd]; simp), hmd, hs]
      · exact rep_loaded hr (.E x) _ rfl rfl rfl rfl rfl
          ⟨l1, rfl, by simp only [Fld.data, l3], l4, show 'e' ∈ letters by decide +kernel, fun _ _ => l6 (by rw [hd]; decide) (by rw [hd]; decide)⟩
  | getEps =>
    cases hs : s.sys with
    | none =>
      have e1 : step t .getEps = some (t, .err) := by simp only [step]; rw [hmd, hs]
      have e2 : s.step .getEps = (s, .err) := by simp only [Spec.step]; rw [hs]
      rw [e1, e2]; exact ⟨t, rfl, hr⟩
    | some m =>
      have hm : t.md = some m := hmd.trans hs
      have e1 : step t .getEps = some ({ t with cur := true, band := 0, type := 'n', buf := .eps }, .ok) := by simp only [step]; rw [hm]
      have e2 : s.step .getEps = ({ s with loaded := some .eps }, .ok) := by simp only [Spec.step]; rw [hs]
      rw [e1, e2]
      exact ⟨_, rfl, rep_loaded hr .eps _ rfl rfl rfl rfl rfl ⟨rfl, rfl, rfl, by rw [hs]; simp, show 'n' ∈ letters by decide +kernel, fun h => absurd rfl h⟩⟩
  | getMu =>
    cases hs : s.sys with
    | none =>
      have e1 : step t .getMu = some (t, .err) := by simp only [step]; rw [hmd, hs]
      have e2 : s.step .getMu = (s, .err) := by simp only [Spec.step]; rw [hs]
      rw [e1, e2]; exact ⟨t, rfl, hr⟩
    | some m =>
      have hm : t.md = some m := hmd.trans hs
      have e1 : step t .getMu = some ({ t with cur := true, band := 0, type := 'm', buf := .mu }, .ok) := by simp only [step]; rw [hm]
      have e2 : s.step .getMu = ({ s with loaded := some .mu }, .ok) := by simp only [Spec.step]; rw [hs]
      rw [e1, e2]
      exact ⟨_, rfl, rep_loaded hr .mu _ rfl rfl rfl rfl rfl ⟨rfl, rfl, rfl, by rw [hs]; simp, show 'm' ∈ letters by decide +kernel, fun _ h => absurd rfl h⟩⟩
  | load c n =>
    cases hs : s.sys with
    | none =>
      have e1 : step t (.load c n) = some (t, .err) := by simp only [step, load]; rw [hmd, hs]
      have e2 : s.step (.load c n) = (s, .err) := by simp only [Spec.step]; rw [hs]
      rw [e1, e2]; exact ⟨t, rfl, hr⟩
    | some m =>
      have hm : t.md = some m := hmd.trans hs
      by_cases hc : c ∈ letters
      · have e1 : step t (.load c n) = some ({ t with cur := true, type := c, buf := .user c n }, .ok) := by
          simp only [step, load]; rw [hm]; simp only; rw [if_pos ((letters_iff c).2 hc)]
        have e2 : s.step (.load c n) = ({ s with loaded := some (.user c n) }, .ok) := by
          simp only [Spec.step]; rw [hs]; exact if_pos hc
        rw [e1, e2]
        exact ⟨_, rfl, rep_loaded hr (.user c n) _ rfl rfl rfl rfl rfl
          ⟨rfl, rfl, rfl, by rw [hs]; simp, hc, fun _ _ b hb => by simp [Fld.band] at hb⟩⟩
      · have e1 : step t (.load c n) = some (t, .err) := by
          simp only [step, load]; rw [hm]; simp only; rw [if_neg (fun h => hc ((letters_iff c).1 h))]
        have e2 : s.step (.load c n) = (s, .err) := by
          simp only [Spec.step]; rw [hs]; exact if_neg hc
        rw [e1, e2]
        exact ⟨t, rfl, hr⟩
  | nonBloch =>
    simp only [Allowed] at ha
    refine refines_onField hr "dhbecv".toList nonBloch _ ?_ ?_
    · intro h
      cases hl : s.loaded with
      | none =>
        unfold nonBloch
        cases hm : t.md with
        | none => rfl
        | some m =>
          simp only
          rw [if_neg (by rw [(hr.unloaded hl).2]; decide +kernel)]
      | some f =>
        obtain ⟨l1, l2, -⟩ := hr.loaded f hl
        have := ha f hl
        rw [l1, l2] at h
        rcases h with h | h
        · exact absurd h (by simp)
        · exact absurd this h
    · intro x hx hc
      obtain ⟨l1, l2, l3, l4, l5, l6⟩ := hr.loaded x hx
      obtain ⟨m, hs⟩ := sys_some l4
      have hm : t.md = some m := hmd.trans hs
      have hmem : t.type ∈ vecChars ++ csChars ++ "DHBnR".toList := by
        rw [l2]
        exact List.mem_append_left _ (List.mem_append_left _ hc)
      refine ⟨{ t with type := 'v' }, ?_, ?_⟩
      · unfold nonBloch
        rw [hm]
        simp only
        rw [if_pos hmem]
      · have hne := vec_ne hc
        exact rep_loaded hr (.nonBloch x) _ rfl rfl rfl rfl rfl
          ⟨l1, rfl, l3, l4, show 'v' ∈ letters by decide +kernel, fun _ _ => l6 hne.1 hne.2⟩
  | energy =>
    refine refines_onField hr "dhb".toList energy _ ?_ ?_
    · intro h
      unfold energy
      rw [if_pos h]
    · intro x hx hc
      obtain ⟨l1, l2, l3, l4, l5, l6⟩ := hr.loaded x hx
      obtain ⟨m, hs⟩ := sys_some l4
      have hm : t.md = some m := hmd.trans hs
      have hwm := withMu_eq hs
      obtain ⟨u1, u2, u3⟩ := upper_dhb _ hc
      have hg : ¬ (!t.cur ∨ t.type ∉ "dhb".toList) := by
        rw [l1, l2]; simp only [Bool.not_true]; tauto
      by_cases hmu : x.letter = 'h' ∧ m.mu = true
      · have e1 : energy t = some (t, .err) := by
          unfold energy; rw [if_neg hg, hm]; simp only [l2]; rw [if_pos hmu]
        rw [e1, hwm, if_pos hmu]
        exact ⟨t, rfl, hr⟩
      · have he : energyInternal t = some { t with type := t.type.toUpper, buf := .dens (weight t.type m.mu) t.buf } := by
          unfold energyInternal
          rw [hm]
          simp only [l1, if_true]
        have hd : Data.dens (weight t.type m.mu) t.buf = (Fld.energy x).data s.withMu := by
          simp only [Fld.data, weight, l2, l3, hwm]
        have e1 : energy t = some ({ t with type := t.type.toUpper, buf := .dens (weight t.type m.mu) t.buf },
            .val t.type.toUpper (.dens (weight t.type m.mu) t.buf)) := by
          unfold energy; rw [if_neg hg, hm]; simp only; rw [if_neg (by rw [l2]; exact hmu), he]; simp only [Option.map_some, hm]
        have e2 : (if x.letter = 'h' ∧ s.withMu = true then (s, Resp.err)
            else ({ s with loaded := some (.energy x) }, .val x.letter.toUpper ((Fld.energy x).data s.withMu))) =
            ({ s with loaded := some (.energy x) }, .val x.letter.toUpper ((Fld.energy x).data s.withMu)) := by
          rw [if_neg (by rw [hwm]; exact hmu)]
        rw [e1, e2, ← hd, ← l2]
        refine ⟨_, rfl, ?_⟩
        have hne : x.letter ≠ 'n' ∧ x.letter ≠ 'm' := by
          constructor <;> (intro h; rw [h] at hc; revert hc; decide +kernel)
        refine rep_loaded hr (.energy x) _ rfl rfl rfl rfl rfl ⟨l1, by simp only [Fld.letter, l2], hd, l4, ?_, fun _ _ => l6 hne.1 hne.2⟩
        simp only [Fld.letter]
        have : x.letter.toUpper = 'D' ∨ x.letter.toUpper = 'H' ∨ x.letter.toUpper = 'B' := by simpa using u1
        rcases this with h | h | h <;> rw [h] <;> decide +kernel
  | squared =>
    simp only [Allowed] at ha
    obtain ⟨x, hx, hc⟩ := ha
    obtain ⟨l1, l2, l3, l4, l5, l6⟩ := hr.loaded x hx
    obtain ⟨m, hs⟩ := sys_some l4
    have hm : t.md = some m := hmd.trans hs
    have e1 : step t .squared = some ({ t with type := 'R', buf := .dens .one t.buf }, .ok) := by
      simp only [step, squared, energyInternal]
      rw [hm]
      simp only [l1, if_true, Option.map_some, l2, mem_vec]
      rw [if_neg (by simp only [Bool.not_true]; tauto)]
      simp only [weight]
      congr 1
    have e2 : s.step .squared = ({ s with loaded := some (.sq x) }, .ok) := by
      simp only [Spec.step, Spec.onField, hx]
      rw [if_pos hc]
    rw [e1, e2]
    have hne := vec_ne hc
    exact ⟨_, rfl, rep_loaded hr (.sq x) _ rfl rfl rfl rfl rfl
          ⟨l1, rfl, by simp only [Fld.data, l3], l4, show 'R' ∈ letters by decide +kernel, fun _ _ => l6 hne.1 hne.2⟩⟩
  | divergence =>
    simp only [Allowed] at ha
    obtain ⟨m, hs⟩ := sys_some ha
    have hm : t.md = some m := hmd.trans hs
    refine refines_onField hr "dhbec".toList divergence _ ?_ ?_
    · intro h
      unfold divergence
      rw [hm]
      simp only
      rw [if_pos h]
    · intro x hx hc
      obtain ⟨l1, l2, l3, l4, l5, l6⟩ := hr.loaded x hx
      have e1 : divergence t = some ({ t with type := 'C', buf := .div t.buf }, .ok) := by
        unfold divergence
        rw [hm]
        simp only
        rw [if_neg (by rw [l1, l2]; simp only [Bool.not_true]; tauto)]
      rw [e1]
      have hne : x.letter ≠ 'n' ∧ x.letter ≠ 'm' := by
        constructor <;> (intro h; rw [h] at hc; revert hc; decide +kernel)
      exact ⟨_, rfl, rep_loaded hr (.div x) _ rfl rfl rfl rfl rfl
          ⟨l1, rfl, by simp only [Fld.data, l3], l4, show 'C' ∈ letters by decide +kernel, fun _ _ => l6 hne.1 hne.2⟩⟩
  | fixPhase =>
    simp only [Allowed] at ha
    refine refines_onField hr "dhbecv".toList fixPhase _ ?_ ?_
    · intro h
      unfold fixPhase
      exact if_pos h
    · intro x hx hc
      obtain ⟨l1, l2, l3, l4, l5, l6⟩ := hr.loaded x hx
      obtain ⟨m, hs⟩ := sys_some l4
      have hm : t.md = some m := hmd.trans hs
      have hne := vec_ne hc
      obtain ⟨b, hb⟩ := Option.ne_none_iff_exists'.1 (ha x hx hc)
      obtain ⟨b1, b2, b3, b4⟩ := l6 hne.1 hne.2 b hb
      have b5 := b4 m hs
      have e1 : fixPhase t = some ({ t with buf := .phased t.buf }, .phase t.band t.buf) := by
        unfold fixPhase
        rw [if_neg (by rw [l1, l2, mem_vec]; simp only [Bool.not_true]; tauto), hm]
        simp only
        rw [if_neg (by rw [b1]; omega)]
      rw [e1, hb]
      refine ⟨{ t with buf := .phased t.buf }, by rw [b1, l3]; rfl, ?_⟩
      exact rep_loaded hr (.fixed x) _ rfl rfl rfl rfl rfl
          ⟨l1, l2, by simp only [Fld.data, l3], l4, l5, fun _ _ => l6 hne.1 hne.2⟩
  | output =>
    simp only [Allowed] at ha
    cases hl : s.loaded with
    | none =>
      have e1 : step t .output = some (t, .err) := by
        simp only [step, output]; rw [if_pos (by rw [(hr.unloaded hl).1]; rfl)]
      have e2 : s.step .output = (s, .err) := by simp only [Spec.step]; rw [hl]
      rw [e1, e2]; exact ⟨t, rfl, hr⟩
    | some x =>
      obtain ⟨l1, l2, l3, l4, l5, l6⟩ := hr.loaded x hl
      obtain ⟨m, hs⟩ := sys_some l4
      have hm : t.md = some m := hmd.trans hs
      have hcur : ¬ ((!t.cur) = true) := by rw [l1]; simp
      by_cases hn : x.letter = 'n' ∨ x.letter = 'm'
      · have e1 : step t .output = some ({ reset t with buf := .junk }, .file t.type 0 0 t.buf) := by
          simp only [step, output]; rw [if_neg hcur, hm]; simp only; rw [if_pos (by rw [l2]; exact hn)]
        have e2 : s.step .output = ({ s with loaded := none }, .file x.letter 0 0 (x.data s.withMu)) := by
          simp only [Spec.step]; rw [hl]; simp only; rw [if_pos hn]
        rw [e1, e2, l2, l3]
        exact ⟨_, rfl, rep_unloaded hr _ rfl rfl rfl rfl rfl rfl rfl⟩
      · have hn1 : x.letter ≠ 'n' := fun h => hn (Or.inl h)
        have hn2 : x.letter ≠ 'm' := fun h => hn (Or.inr h)
        obtain ⟨b, hb⟩ := Option.ne_none_iff_exists'.1 (ha x hl hn1 hn2)
        obtain ⟨b1, b2, b3, b4⟩ := l6 hn1 hn2 b hb
        have b5 := b4 m hs
        obtain ⟨m', hm', hf⟩ := hr.solved b3
        rw [hs] at hm'
        obtain rfl : m = m' := by simpa using hm'
        have e1 : step t .output = some ({ reset t with buf := .junk }, .file t.type t.k t.band t.buf) := by
          simp only [step, output]; rw [if_neg hcur, hm]; simp only
          rw [if_neg (by rw [l2]; exact hn), if_pos (by rw [l2]; exact (letters_iff _).2 l5), if_neg (by rw [b1, hf]; omega)]
        have e2 : s.step .output = ({ s with loaded := none }, .file x.letter s.k b (x.data s.withMu)) := by
          simp only [Spec.step]; rw [hl]; simp only; rw [if_neg hn, hb]; rfl
        rw [e1, e2, l2, l3, b1, hr.k]
        exact ⟨_, rfl, rep_unloaded hr _ rfl rfl rfl rfl rfl rfl rfl⟩
  | read r =>
    have hacc : accepted r = r.types := by cases r <;> rfl
    refine refines_onField hr (accepted r) (read r) _ ?_ ?_ <;> rw [hacc]
    · intro h
      unfold read
      rw [if_pos h]
    · intro x hx hc
      obtain ⟨l1, l2, l3, l4, l5, l6⟩ := hr.loaded x hx
      obtain ⟨m, hs⟩ := sys_some l4
      have hm : t.md = some m := hmd.trans hs
      refine ⟨t, ?_, hr⟩
      unfold read
      rw [if_neg (by rw [l1, l2]; simp only [Bool.not_true]; tauto), hm]
      simp only [l2, l3]
  | groupVel =>
    simp only [Allowed] at ha
    have hunl : s.loaded = none → Rep s (reset t) := by
      intro hl
      have := rep_unloaded hr (reset t) rfl rfl rfl rfl rfl rfl rfl
      rw [← hl] at this
      exact this
    cases hs : s.sys with
    | none =>
      have hm : t.md = none := hmd.trans hs
      have e1 : step t .groupVel = some (reset t, .err) := by simp only [step, groupVel]; rw [hm]
      have e2 : s.step .groupVel = (s, .err) := by simp only [Spec.step]; rw [hs]
      rw [e1, e2]
      refine ⟨_, rfl, hunl ?_⟩
      cases h : s.loaded with
      | none => rfl
      | some f => exact absurd hs (hr.loaded f h).2.2.2.1
    | some m =>
      have hm : t.md = some m := hmd.trans hs
      by_cases hk : s.k = 0
      · have e1 : step t .groupVel = some (reset t, .err) := by simp only [step, groupVel]; rw [hm]; simp only; rw [if_pos (hr.k.trans hk)]
        have e2 : s.step .groupVel = (s, .err) := by simp only [Spec.step]; rw [hs]; simp only; rw [if_pos hk]
        rw [e1, e2]
        exact ⟨_, rfl, hunl (ha.1 hk)⟩
      · obtain ⟨m', hm', hf⟩ := hr.solved (hr.ksolved hk)
        rw [hs] at hm'
        obtain rfl : m = m' := by simpa using hm'
        have hle : t.nb ≤ t.freqs := by rw [hr.nb, hf, ha.2 m hs]; exact Nat.le_refl _
        have e1 : step t .groupVel = some ({ reset t with buf := .junk }, .ok) := by
          simp only [step, groupVel]; rw [hm]; simp only; rw [if_neg (by rw [hr.k]; exact hk), if_pos hle]
        have e2 : s.step .groupVel = ({ s with loaded := none }, .ok) := by simp only [Spec.step]; rw [hs]; simp only; rw [if_neg hk]
        rw [e1, e2]
        exact ⟨_, rfl, rep_unloaded hr _ rfl rfl rfl rfl rfl rfl rfl⟩
  | dotEig =>
    simp only [Allowed] at ha
    cases hs : s.sys with
    | none =>
      have e1 : step t .dotEig = some (t, .err) := by simp only [step]; rw [hmd, hs]
      have e2 : s.step .dotEig = (s, .err) := by simp only [Spec.step]; rw [hs]
      rw [e1, e2]; exact ⟨t, rfl, hr⟩
    | some m =>
      have hm : t.md = some m := hmd.trans hs
      have e1 : step t .dotEig = some ({ t with buf := if m.mu then .junk else t.buf }, .ok) := by simp only [step]; rw [hm]
      have e2 : s.step .dotEig = (s, .ok) := by simp only [Spec.step]; rw [hs]
      rw [e1, e2]
      refine ⟨_, rfl, hr.md, hr.nb, hr.k, hr.nsol, hr.sol, hr.ksolved, hr.solved, hr.unloaded, ?_⟩
      intro f hf
      obtain ⟨l1, l2, l3, l4, l5, l6⟩ := hr.loaded f hf
      refine ⟨l1, l2, ?_, l4, l5, l6⟩
      simp only
      rw [if_neg, l3]
      rw [← withMu_eq hs]
      intro h
      rw [ha h] at hf
      simp at hf
  | setEig =>
    cases hs : s.sys with
    | none =>
      have e1 : step t .setEig = some (t, .err) := by simp only [step]; rw [hmd, hs]
      have e2 : s.step .setEig = (s, .err) := by simp only [Spec.step]; rw [hs]
      rw [e1, e2]; exact ⟨t, rfl, hr⟩
    | some m =>
      have hm : t.md = some m := hmd.trans hs
      have e1 : step t .setEig = some ({ reset t with nsol := t.nsol + 1 }, .ok) := by simp only [step]; rw [hm]
      have e2 : s.step .setEig = ({ s with loaded := none, nsol := s.nsol + 1 }, .ok) := by simp only [Spec.step]; rw [hs]
      rw [e1, e2]
      refine ⟨_, rfl, hr.md, hr.nb, hr.k, by simp only [hr.nsol], hr.sol, hr.ksolved, hr.solved, fun _ => ⟨rfl, rfl⟩, ?_⟩
      intro f hf; simp at hf
  | symmetry b =>
    simp only [Allowed] at ha
    obtain ⟨t1, h1, r1⟩ := refines_get hr 'b' (by decide +kernel) b
    simp only [step, symmetry, h1, Option.bind_some]
    by_cases hg : ∃ m, s.sys = some m ∧ s.k ≠ 0 ∧ 1 ≤ b ∧ b ≤ (m.p : ℤ)
    · obtain ⟨m, hs, hg⟩ := hg
      have e1 : s.get b (.mode 'b') = ({ s with loaded := some (.mode 'b' b.toNat s.nsol) }, .ok) := by
        unfold Spec.get; rw [hs]; simp only; rw [if_pos hg]
      have e2 : s.step (.symmetry b) = ({ s with loaded := some (.mode 'b' b.toNat s.nsol) }, .val 'b' (.mode 'b' b.toNat s.nsol)) := by
        simp only [Spec.step]; rw [e1]
      rw [e1] at r1
      rw [e2]
      obtain ⟨l1, l2, l3, l4, l5, l6⟩ := r1.loaded _ rfl
      have hmd1 : t1.md = some m := by rw [r1.md]; exact hs
      refine ⟨t1, ?_, r1⟩
      unfold read
      have hnd : ¬ ((!t1.cur) = true ∨ t1.type ∉ Reader.overlap.types) := by
        rw [l1, l2]
        show ¬ ((!true) = true ∨ 'b' ∉ Reader.overlap.types)
        decide +kernel
      rw [if_neg hnd, hmd1, l2, l3]
      rfl
    · have e : ∀ mk : ℕ → ℕ → Fld, s.get b mk = (s, .err) := by
        intro mk
        unfold Spec.get
        cases hs : s.sys with
        | none => rfl
        | some m => simp only; rw [if_neg (fun h => hg ⟨m, hs, h⟩)]
      have e2 : s.step (.symmetry b) = (s, .err) := by simp only [Spec.step]; rw [e]
      rw [e] at r1
      rw [e2]
      refine ⟨t1, ?_, r1⟩
      have hnd : !t1.cur ∨ t1.type ∉ Reader.overlap.types := by
        cases hl : s.loaded with
        | none => left; rw [(r1.unloaded hl).1]; rfl
        | some f =>
          right
          rw [(r1.loaded f hl).2.1]
          exact (ha.resolve_left hg) f hl
      unfold read
      rw [if_pos hnd]
  | groupVel1 b =>
    simp only [Allowed] at ha
    obtain ⟨m, hs, hk, hb1, hb2⟩ := ha
    have hm : t.md = some m := hmd.trans hs
    obtain ⟨m', hm', hf⟩ := hr.solved (hr.ksolved hk)
    rw [hs] at hm'
    obtain rfl : m = m' := by simpa using hm'
    have e1 : step t (.groupVel1 b) = some ({ reset t with buf := .junk }, .val 'g' (.mode 'g' b.toNat t.nsol)) := by
      simp only [step, groupVel1]; rw [hm]; simp only
      rw [if_neg (by rw [hr.k]; exact hk), if_neg (by rw [hf]; omega)]
    have e2 : s.step (.groupVel1 b) = ({ s with loaded := none }, .val 'g' (.mode 'g' b.toNat s.nsol)) := by
      simp only [Spec.step]; rw [hs]; simp only; rw [if_pos ⟨hk, hb1, hb2⟩]
    rw [e1, e2, hr.nsol]
    exact ⟨_, rfl, rep_unloaded hr _ rfl rfl rfl rfl rfl rfl rfl⟩
  | dominant b =>
    simp only [Allowed] at ha
    cases hs : s.sys with
    | none =>
      have e1 : step t (.dominant b) = some (t, .err) := by simp only [step, dominant]; rw [hmd, hs]
      have e2 : s.step (.dominant b) = (s, .err) := by simp only [Spec.step]; rw [hs]
      rw [e1, e2]; exact ⟨t, rfl, hr⟩
    | some m =>
      have hm : t.md = some m := hmd.trans hs
      by_cases hb : 1 ≤ b ∧ b ≤ (m.p : ℤ)
      · have hsol : s.solved = true := ha.resolve_right fun h => h m hs hb
        have e1 : step t (.dominant b) = some (t, .val 'k' (.mode 'k' b.toNat t.nsol)) := by
          simp only [step, dominant]; rw [hm]; simp only; rw [if_neg (by omega), hr.sol, hsol]; rfl
        have e2 : s.step (.dominant b) = (s, .val 'k' (.mode 'k' b.toNat s.nsol)) := by
          simp only [Spec.step]; rw [hs]; simp only; rw [if_pos ⟨hsol, hb⟩]
        rw [e1, e2, hr.nsol]; exact ⟨t, rfl, hr⟩
      · have e1 : step t (.dominant b) = some (t, .err) := by
          simp only [step, dominant]; rw [hm]; simp only; rw [if_pos (by omega)]
        have e2 : s.step (.dominant b) = (s, .err) := by
          simp only [Spec.step]; rw [hs]; simp only; rw [if_neg fun h => hb h.2]
        rw [e1, e2]; exact ⟨t, rfl, hr⟩
  | epsPoint =>
    simp only [Allowed] at ha
    cases hs : s.sys with
    | none => exact absurd hs ha
    | some m =>
      have hm : t.md = some m := hmd.trans hs
      have e1 : step t .epsPoint = some (t, .val 'n' .eps) := by simp only [step, epsPoint]; rw [hm]
      have e2 : s.step .epsPoint = (s, .val 'n' .eps) := by simp only [Spec.step]; rw [hs]
      rw [e1, e2]; exact ⟨t, rfl, hr⟩

/-- **C44** (partial).  For every history of commands in which each command is issued in a state covered by `Allowed`, the program does
not touch memory outside its arrays, and all its answers and output files are those of the specification: each command runs on the
field of the latest successful load (as transformed since) or reports an error without changing anything the user can see. -/
theorem C44_refines_partial (cs : List Cmd) (h : AllowedRun {} cs) :
    ∃ t, run {} cs = some (t, (Spec.run {} cs).2) := by
  have key : ∀ (cs : List Cmd) (s : Spec) (t : St), Rep s t → AllowedRun s cs → ∃ t', run t cs = some (t', (s.run cs).2) := by
    intro cs
    induction cs with
    | nil => intro s t _ _; exact ⟨t, rfl⟩
    | cons c cs ih =>
      intro s t hr ha
      obtain ⟨t1, h1, r1⟩ := step_refines s t c hr ha.1
      obtain ⟨t2, h2⟩ := ih _ t1 r1 ha.2
      refine ⟨t2, ?_⟩
      simp only [run, h1, Option.bind_some, h2, Option.map_some, Spec.run]
  exact key cs {} {} rep_init h

instance decForall {α : Type} (o : Option α) (P : α → Prop) [∀ a, Decidable (P a)] : Decidable (∀ a, o = some a → P a) :=
  match o with
  | none => isTrue fun _ h => nomatch h
  | some x => if h : P x then isTrue fun _ e => Option.some.inj e ▸ h else isFalse fun g => h (g x rfl)

instance decExists {α : Type} (o : Option α) (P : α → Prop) [∀ a, Decidable (P a)] : Decidable (∃ a, o = some a ∧ P a) :=
  match o with
  | none => isFalse fun ⟨_, h, _⟩ => nomatch h
  | some x => if h : P x then isTrue ⟨x, rfl, h⟩ else isFalse fun ⟨_, e, g⟩ => h (Option.some.inj e ▸ g)

instance decNone {α : Type} (o : Option α) : Decidable (o = none) :=
  match o with
  | none => isTrue rfl
  | some _ => isFalse fun h => nomatch h

instance decAllowed (s : Spec) (c : Cmd) : Decidable (Allowed s c) := by
  cases c <;> unfold Allowed <;> infer_instance

instance decAllowedRun : (s : Spec) → (cs : List Cmd) → Decidable (AllowedRun s cs)
  | _, [] => isTrue trivial
  | s, c :: cs => @instDecidableAnd _ _ (decAllowed s c) (decAllowedRun (s.step c).1 cs)

/-- Non-vacuity: a typical session (two bands; D, its energy, output; E; H squared; a stored field, a point value of it). -/
example : AllowedRun {} [.getD 1, .setNumBands 2, .init false, .getEps, .output, .solve, .getD 2, .energy, .read .energy, .output, .output,
    .getE 1, .fixPhase, .output, .getH 3, .getH 2, .squared, .load 'v' 7, .read .vector, .groupVel, .read .vector, .symmetry 2, .groupVel1 1, .dominant 2,
    .epsPoint, .symmetry 3, .init true, .energy] := by
  decide +kernel

/-- The answers in a session: the energy density of D is weighted with ε⁻¹; the second output fails; the file name has the
right letter, k index and band. -/
example : (Spec.run {} [.setNumBands 2, .init false, .solve, .getD 2, .energy, .output, .output]).2 =
    [.ok, .ok, .ok, .ok, .val 'D' (.dens .epsInv (.mode 'd' 2 1)), .file 'D' 1 2 (.dens .epsInv (.mode 'd' 2 1)), .err] := by decide +kernel

/-! ## Refutations: the uses excluded in `Allowed` -/

/-- **C44, refuted**: compute-field-squared without a field writes through a NULL pointer. -/
theorem C44_squared_refuted : run {} [.init false, .squared] = none := by decide +kernel

/-- **C44, refuted**: compute-field-squared on epsilon reports an error and replaces epsilon by nonsense, which output-field then (band 0)
describes with a frequency from outside its array; or after `solve-kpoint` get-energy-point accepts it. -/
theorem C44_squared_scalar_refuted :
    run {} [.init false, .getEps, .squared, .read .energy] =
      some ({ md := some ⟨false, 1⟩, cur := true, type := 'R', buf := .dens .one .eps }, [.ok, .ok, .err, .val 'R' (.dens .one .eps)]) ∧
    run {} [.init false, .getEps, .squared, .output] = none := by decide +kernel

/-- **C44, refuted**: a get-efield that fails (band 5 of 1) turns the loaded D field of band 1 into E, and the next commands use it. -/
theorem C44_efield_refuted :
    run {} [.init false, .solve, .getD 1, .getE 5, .output] =
      some ({ md := some ⟨false, 1⟩, k := 1, freqs := 1, nsol := 1, sol := true, band := 1 },
        [.ok, .ok, .ok, .err, .file 'e' 1 1 (.eOf (.mode 'd' 1 1))]) ∧
    (Spec.run {} [.init false, .solve, .getD 1, .getE 5, .output]).2 = [.ok, .ok, .ok, .err, .file 'd' 1 1 (.mode 'd' 1 1)] := by
  decide +kernel

/-- **C44, refuted**: compute-field-divergence before init-params dereferences a NULL pointer. -/
theorem C44_divergence_refuted : run {} [.divergence] = none := by decide +kernel

/-- **C44, refuted**: after get-dfield 2, a stored field (number 7, any origin) is loaded; fix-field-phase multiplies the eigenvector of band 2 with a phase
found from the stored field, and output-field labels it as band 2. -/
theorem C44_load_band_refuted :
    run {} [.setNumBands 2, .init false, .solve, .getD 2, .load 'd' 7, .fixPhase, .output] =
      some ({ md := some ⟨false, 2⟩, nb := 2, k := 1, freqs := 2, nsol := 1, sol := true, band := 2 },
        [.ok, .ok, .ok, .ok, .ok, .phase 2 (.user 'd' 7), .file 'd' 1 2 (.phased (.user 'd' 7))]) := by decide +kernel

/-- **C44, refuted**: after get-epsilon the band is 0, and fix-field-phase of a stored field writes before the start of the eigenvectors; output-field
of a stored field reads before the start of the frequencies. -/
theorem C44_load_crash_refuted :
    run {} [.init false, .solve, .getEps, .load 'd' 7, .fixPhase] = none ∧
    run {} [.init false, .solve, .getEps, .load 'd' 7, .output] = none := by decide +kernel

/-- **C44, refuted**: cvector-field-nonbloch! makes a vector field of epsilon. -/
theorem C44_nonbloch_refuted :
    run {} [.init false, .getEps, .nonBloch, .read .vector] =
      some ({ md := some ⟨false, 1⟩, cur := true, type := 'v', buf := .eps }, [.ok, .ok, .ok, .val 'v' .eps]) := by decide +kernel

/-- **C44, refuted**: compute-group-velocities without a solution fails but drops the field that was loaded. -/
theorem C44_groupvel_refuted :
    run {} [.init false, .getEps, .groupVel, .output] = some ({ md := some ⟨false, 1⟩, buf := .eps }, [.ok, .ok, .err, .err]) := by decide +kernel

/-- **C44, refuted**: with a permeability dot-eigenvectors overwrites the field that is loaded; it is then output as if it were valid. -/
theorem C44_dot_refuted :
    run {} [.init true, .solve, .getB 1, .dotEig, .output] =
      some ({ md := some ⟨true, 1⟩, k := 1, freqs := 1, nsol := 1, sol := true, band := 1 }, [.ok, .ok, .ok, .ok, .file 'b' 1 1 .junk]) := by decide +kernel

/-- **C44, refuted**: if num-bands is reduced between init-params and solve-kpoint, get-dfield accepts bands for which there is no frequency. -/
theorem C44_numbands_refuted :
    run {} [.setNumBands 2, .init false, .setNumBands 1, .solve, .getD 2] = none := by decide +kernel

/-- **C44, refuted**: with a k-point index set by hand get-dfield runs before solve-kpoint. -/
theorem C44_kindex_refuted : run {} [.init false, .setKIndex 1, .getD 1] = none := by decide +kernel

/-- **C44, refuted**: compute-symmetry of a band that does not exist (5 of 1) returns the overlap of the D field that happens to be loaded. -/
theorem C44_symmetry_refuted :
    run {} [.init false, .solve, .getD 1, .symmetry 5] =
      some ({ md := some ⟨false, 1⟩, k := 1, freqs := 1, nsol := 1, sol := true, band := 1, cur := true, type := 'd', buf := .mode 'd' 1 1 },
        [.ok, .ok, .ok, .val 'd' (.mode 'd' 1 1)]) := by decide +kernel

/-- **C44, refuted**: compute-1-group-velocity returns an uninitialised number if there is no solution yet, and reads outside of the eigenvectors for a band that
does not exist. -/
theorem C44_velocity_refuted :
    run {} [.groupVel1 1] = some ({}, [.garbage]) ∧ run {} [.init false, .solve, .groupVel1 2] = none := by decide +kernel

/-- **C44, refuted**: get-dominant-planewave answers before there is a solution. -/
theorem C44_dominant_refuted :
    run {} [.init false, .dominant 1] = some ({ md := some ⟨false, 1⟩ }, [.ok, .val 'k' .junk]) := by decide +kernel

/-- **C44, refuted**: get-epsilon-point before init-params dereferences a NULL pointer. -/
theorem C44_epspoint_refuted : run {} [.epsPoint] = none := by decide +kernel

end Mpb.Session

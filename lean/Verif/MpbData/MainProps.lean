import Verif.MpbData.MainSpec
import Verif.MpbData.FileProps
import Verif.IO.Props
import Mathlib.Data.Option.Basic

/-! # C123: the command line of `mpb-data` -/

namespace Mpb.MpbData
open Spec

/-! ## The options -/

theorem latest_cons {α : Type} (sel : Flag → Option α) (f : Flag) (l : List Flag) (d : Option α) :
    (latest sel (f :: l)).or d = (latest sel l).or ((sel f).or d) := by
  unfold latest
  cases h : sel f with
  | none => simp [List.filterMap_cons, h]
  | some a =>
    cases h' : l.filterMap sel with
    | nil => simp [List.filterMap_cons, h, h']
    | cons b t =>
      have e : ((a :: b :: t) : List α).getLast? = (b :: t).getLast? := by simp [List.getLast?_cons_cons]
      simp only [List.filterMap_cons, h, h', e]
      cases hg : (b :: t).getLast? with
      | none => simp at hg
      | some z => simp

theorem latest_getD {α : Type} (sel : Flag → Option α) (f : Flag) (l : List Flag) (d : α) :
    (latest sel (f :: l)).getD d = (latest sel l).getD ((sel f).getD d) := by
  have h := congrArg (fun o => o.getD d) (latest_cons sel f l (some d))
  have e : ∀ (o : Option α) (x : α), (o.or (some x)).getD d = o.getD x := by
    intro o x; cases o <;> rfl
  have e' : (sel f).or (some d) = some ((sel f).getD d) := by cases sel f <;> rfl
  simp only [e', e] at h
  exact h

/-- The local variables of `main` after the options, starting from `c`. -/
noncomputable def after (flags : List Flag) (c : Cfg) : Cfg where
  out := (latest outFlag flags).or c.out
  data := (latest dataFlag flags).or c.data
  rect := c.rect || flags.any isRect
  ve := (latest dirFlag flags).or c.ve
  angle := ((latest phaseFlag flags).or (some c.angle)).getD 0
  resolution := ((latest nFlag flags).or (some c.resolution)).getD 0
  mult := ⟨((latest xFlag flags).or (some c.mult.x)).getD 0, ((latest yFlag flags).or (some c.mult.y)).getD 0,
    ((latest zFlag flags).or (some c.mult.z)).getD 0⟩
  nearest := c.nearest || flags.any isPixel
  transpose := c.transpose || flags.any isTranspose

theorem after_nil (c : Cfg) : after [] c = c := by
  cases c; simp [after, latest]

theorem parse_usable (flags : List Flag) (h : ∀ f ∈ flags, Usable f) (rest : List Flag) (c : Cfg) :
    parse (flags ++ rest) c = parse rest (after flags c) := by
  induction flags generalizing c with
  | nil => rw [List.nil_append, after_nil]
  | cons f l ih =>
    have hf := h f (by simp)
    have ih := ih (fun g hg => h g (by simp [hg]))
    obtain ⟨c', e1, e2⟩ : ∃ c', parseFlag c f = .go c' ∧ after l c' = after (f :: l) c := by
      cases f with
      | dir v =>
        cases v with
        | none => simp [Usable] at hf
        | some v =>
          refine ⟨_, rfl, ?_⟩
          simp [after, latest_cons, latest_getD, outFlag, dataFlag, xFlag, yFlag, zFlag, nFlag, phaseFlag, dirFlag, isPixel, isTranspose, isRect]
      | n r =>
        refine ⟨_, if_pos hf, ?_⟩
        simp [after, latest_cons, latest_getD, outFlag, dataFlag, xFlag, yFlag, zFlag, nFlag, phaseFlag, dirFlag, isPixel, isTranspose, isRect]
      | help => exact hf.elim
      | version => exact hf.elim
      | invalid => exact hf.elim
      | _ =>
        refine ⟨_, rfl, ?_⟩
        simp [after, latest_cons, latest_getD, outFlag, dataFlag, xFlag, yFlag, zFlag, nFlag, phaseFlag, dirFlag, isPixel, isTranspose, isRect]
    rw [List.cons_append, parse, e1]
    exact (ih c').trans (by rw [e2])

theorem parse_go (flags : List Flag) (h : ∀ f ∈ flags, Usable f) (c : Cfg) : parse flags c = .go (after flags c) := by
  have := parse_usable flags h [] c
  rwa [List.append_nil] at this

theorem parse_stop (pre : List Flag) (h : ∀ f ∈ pre, Usable f) (f : Flag) (hf : ¬ Usable f) (post : List Flag) (c : Cfg) :
    parse (pre ++ f :: post) c = .exit (isInfo f) := by
  rw [parse_usable pre h]
  generalize after pre c = d
  have e : parseFlag d f = .exit (isInfo f) := by
    cases f with
    | dir v => cases v with
      | none => rfl
      | some v => simp [Usable] at hf
    | n r => exact if_neg hf
    | help => rfl
    | version => rfl
    | invalid => rfl
    | _ => exact (hf trivial).elim
  rw [parse, e]

theorem phaseOf_eq (a : ℝ) : phaseOf a = Complex.exp (2 * Real.pi * Complex.I * (a : ℝ) / 360) := by
  have : (2 * Real.pi * Complex.I * (a : ℝ) / 360 : ℂ) = ((2 * Real.pi * a / 360 : ℝ) : ℂ) * Complex.I := by
    push_cast; ring
  rw [this]
  unfold phaseOf
  generalize 2 * Real.pi * a / 360 = t
  rw [Complex.exp_mul_I, ← Complex.ofReal_cos, ← Complex.ofReal_sin]
  apply Complex.ext
  · rw [Complex.add_re, Complex.ofReal_re, Complex.re_ofReal_mul, Complex.I_re, mul_zero, add_zero]
  · rw [Complex.add_im, Complex.ofReal_im, Complex.im_ofReal_mul, Complex.I_im, mul_one, zero_add]

theorem fileOpts_first (flags : List Flag) (dname : List Char) :
    fileOpts (after flags cfg0) dname (latest outFlag flags) = options flags true dname := by
  unfold fileOpts options after cfg0
  simp only [phaseOf_eq]
  congr 1
  · cases latest outFlag flags <;> rfl
  · simp
  · simp
  · cases latest nFlag flags <;> simp
  · cases latest phaseFlag flags <;> simp
  · congr 1
    · cases latest xFlag flags <;> simp
    · cases latest yFlag flags <;> simp
    · cases latest zFlag flags <;> simp

theorem options_data (flags : List Flag) (first : Bool) (dname : List Char) :
    names (options flags first dname) =
      if dataset flags dname = [] then dataNames else [dataset flags dname] := by
  unfold names options dataset
  dsimp only
  by_cases h : dname = []
  · simp only [if_pos h]
    rcases latest dataFlag flags with _ | _ | ⟨c, l⟩ <;> simp
  · simp only [if_neg h]
    rcases dname with _ | ⟨c, l⟩
    · exact absurd rfl h
    · simp

/-- The arrays are large enough exactly for names of up to 297 characters. -/
theorem buffersOk_iff (flags : List Flag) (first : Bool) (dname : List Char) :
    buffersOk (options flags first dname) = true ↔ (dataset flags dname).length ≤ 297 := by
  unfold buffersOk
  rw [options_data]
  have hout : ∀ n : List Char, (outName (options flags first dname) n).length ≤ n.length + 4 := by
    intro n; unfold outName; split_ifs <;> simp
  have h2 : ∀ n : List Char, (n ++ ".r".toList).length = n.length + 2 := by intro n; simp
  have h3 : ∀ n : List Char, (n ++ ".i".toList).length = n.length + 2 := by intro n; simp
  have key : ∀ n : List Char, (fits 300 n && fits 300 (n ++ ".r".toList) && fits 300 (n ++ ".i".toList) &&
      fits 1000 (outName (options flags first dname) n) && fits 1000 (outName (options flags first dname) (n ++ ".r".toList)) &&
      fits 1000 (outName (options flags first dname) (n ++ ".i".toList))) = true ↔ n.length ≤ 297 := by
    intro n
    have e1 := hout n
    have e2 := hout (n ++ ".r".toList)
    have e3 := hout (n ++ ".i".toList)
    rw [h2] at e2
    rw [h3] at e3
    simp only [fits, Bool.and_eq_true, decide_eq_true_eq, h2, h3]
    omega
  by_cases h : dataset flags dname = []
  · rw [if_pos h, h]
    simp only [List.length_nil, Nat.zero_le, iff_true, List.all_eq_true]
    intro n hn
    rw [key]
    have : ∀ n ∈ dataNames, n.length ≤ 297 := by decide +kernel
    exact this n hn
  · rw [if_neg h, List.all_cons, List.all_nil, Bool.and_true, key]

/-! ## The phase cache does not matter -/

theorem rel_bind {α β : Type} {r : α → α → Prop} {q : β → β → Prop} {a b : Option α} {F G : α → Option β}
    (h : Option.Rel r a b) (hFG : ∀ x y, r x y → Option.Rel q (F x) (G y)) : Option.Rel q (a.bind F) (b.bind G) := by
  cases h with
  | none => exact .none
  | some h => exact hFG _ _ h

theorem rel_map {α β : Type} {r : α → α → Prop} {q : β → β → Prop} {a b : Option α} {F G : α → β}
    (h : Option.Rel r a b) (hFG : ∀ x y, r x y → q (F x) (G y)) : Option.Rel q (a.map F) (b.map G) := by
  cases h with
  | none => exact .none
  | some h => exact .some (hFG _ _ h)

theorem rel_same {α : Type} (a : Option α) : Option.Rel (· = ·) a a := by
  cases a with
  | none => exact .none
  | some x => exact .some rfl

theorem rel_foldlM {α β : Type} {r : α → α → Prop} {F : α → β → Option α}
    (h : ∀ x y b, r x y → Option.Rel r (F x b) (F y b)) (l : List β) (x y : α) (hr : r x y) :
    Option.Rel r (l.foldlM F x) (l.foldlM F y) := by
  induction l generalizing x y with
  | nil => exact .some hr
  | cons b l ih =>
    simp only [List.foldlM_cons]
    exact rel_bind (h x y b hr) fun x' y' h' => ih x' y' h'

/-- The same first components, and sensible caches. -/
def Like {α : Type} (x y : α × Cache) : Prop := x.1 = y.1 ∧ x.2.Ok ∧ y.2.Ok

theorem lookup_same {c d : Cache} (hc : c.Ok) (hd : d.Ok) (p : ℝ) : lookup c p = lookup d p := by
  obtain ⟨⟨a1, a2⟩, a3⟩ := lookup_ok hc p
  obtain ⟨⟨b1, b2⟩, b3⟩ := lookup_ok hd p
  rw [a3] at a1 a2
  rw [b3] at b1 b2
  rcases h : lookup c p with ⟨x1, x2, x3⟩
  rcases h' : lookup d p with ⟨y1, y2, y3⟩
  rw [h] at a1 a2 a3
  rw [h'] at b1 b2 b3
  simp only at a1 a2 a3 b1 b2 b3
  rw [a1, a2, a3, b1, b2, b3]

theorem mapDataC_like (P : Params) (din : List ℂ) (mem : ℕ → ℂ) {c d : Cache} (hc : c.Ok) (hd : d.Ok) :
    Option.Rel Like (mapDataC P din mem c) (mapDataC P din mem d) := by
  unfold mapDataC
  refine rel_foldlM ?_ _ _ _ ⟨rfl, hc, hd⟩
  rintro ⟨m, c⟩ ⟨m', d⟩ t ⟨rfl, hc, hd⟩
  unfold Params.stepC
  have hp : Option.Rel Like (P.pointC din c (P.pos t)) (P.pointC din d (P.pos t)) := by
    unfold Params.pointC
    refine rel_foldlM ?_ _ _ _ ⟨rfl, hc, hd⟩
    rintro ⟨s, c⟩ ⟨s', d⟩ e ⟨h1, hc, hd⟩
    simp only at h1 hc hd
    subst h1
    refine rel_map (rel_same _) ?_
    rintro x _ rfl
    unfold addTimesPhase
    simp only [lookup_same hc hd]
    exact ⟨rfl, (lookup_ok hd _).1, (lookup_ok hd _).1⟩
  refine rel_bind hp ?_
  rintro ⟨v, c'⟩ ⟨v', d'⟩ ⟨h1, hc', hd'⟩
  simp only at h1 hc' hd'
  subst h1
  refine rel_map (rel_same _) ?_
  rintro x _ rfl
  exact ⟨rfl, hc', hd'⟩

/-- The same files, and sensible caches. -/
def LikeF (s t : FSt) : Prop := s.inF = t.inF ∧ s.outF = t.outF ∧ s.cache.Ok ∧ t.cache.Ok

theorem put_like (o : Opts) {s t : FSt} (h : LikeF s t) (n : List Char) (d : DSet) : LikeF (put o s n d) (put o t n d) := by
  obtain ⟨h1, h2, h3, h4⟩ := h
  unfold put
  split_ifs
  · exact ⟨by simp [h1], h2, h3, h4⟩
  · exact ⟨h1, by simp [h2], h3, h4⟩

theorem handleReal_like (o : Opts) (g : Geo) (junk : ℕ → ℝ) (n : List Char) {s t : FSt} (h : LikeF s t) :
    Option.Rel LikeF (handleReal o g junk n s) (handleReal o g junk n t) := by
  unfold handleReal
  rw [h.1]
  refine rel_bind (rel_same _) ?_
  rintro r _ rfl
  rcases r with _ | ⟨rank, n', din⟩
  · exact .some h
  · refine rel_bind (rel_same _) ?_
    rintro x _ rfl
    refine rel_map (rel_same _) ?_
    rintro y _ rfl
    exact put_like o h _ _

theorem complex_like (o : Opts) (P : Params) (din : List ℂ) (mem : ℕ → ℂ) (rank : ℕ) (dims2 : List ℕ) (p q : List Char)
    {s t : FSt} (h : LikeF s t) :
    Option.Rel LikeF
      ((mapDataC P din mem s.cache).bind fun res =>
        let out := fun a => o.scaleby * res.1 a
        (newData rank dims2 (fun a => (out a).re)).bind fun dr =>
          let s1 := put o { s with cache := res.2 } (outName o p) dr
          (newData rank dims2 (fun a => (out a).im)).map fun di => put o s1 (outName o q) di)
      ((mapDataC P din mem t.cache).bind fun res =>
        let out := fun a => o.scaleby * res.1 a
        (newData rank dims2 (fun a => (out a).re)).bind fun dr =>
          let s1 := put o { t with cache := res.2 } (outName o p) dr
          (newData rank dims2 (fun a => (out a).im)).map fun di => put o s1 (outName o q) di) := by
  refine rel_bind (mapDataC_like P din mem h.2.2.1 h.2.2.2) ?_
  rintro ⟨a, c⟩ ⟨b, d⟩ ⟨h1, hc, hd⟩
  simp only at h1 hc hd
  subst h1
  refine rel_bind (rel_same _) ?_
  rintro x _ rfl
  refine rel_map (rel_same _) ?_
  rintro y _ rfl
  exact put_like o (put_like o (s := { s with cache := c }) (t := { t with cache := d }) ⟨h.1, h.2.1, hc, hd⟩ _ _) _ _

theorem handlePair_like (o : Opts) (g : Geo) (junk : ℕ → ℝ) (p q : List Char) {s t : FSt} (h : LikeF s t) :
    Option.Rel LikeF (handlePair o g junk p q s) (handlePair o g junk p q t) := by
  have h0 := h
  rcases s with ⟨i, ou, c⟩
  rcases t with ⟨i', ou', d⟩
  obtain ⟨h1, h2, hc, hd⟩ := h0
  simp only at h1 h2 hc hd
  subst h1 h2
  unfold handlePair
  refine rel_bind (rel_same _) ?_
  rintro r _ rfl
  rcases r with _ | ⟨rank, n, re⟩
  · exact .some h
  · refine rel_bind (rel_same _) ?_
    rintro r' _ rfl
    rcases r' with _ | ⟨rank', n', im⟩
    · exact .some h
    · dsimp only
      split_ifs
      · exact complex_like o _ _ _ _ _ _ _ h
      · exact .none

theorem handleVec_like (o : Opts) (g : Geo) (junk : ℕ → ℝ) {s t : FSt} (h : LikeF s t) :
    Option.Rel LikeF (handleVec o g junk s) (handleVec o g junk t) := by
  unfold handleVec
  rw [h.1]
  refine rel_bind (rel_same _) ?_
  rintro r _ rfl
  have hb : Option.Rel LikeF (['x', 'y', 'z'].foldlM (fun s c =>
        (handlePair o g junk (compName c 'r') (compName c 'i') s).bind (handleReal o g junk [c])) s)
      (['x', 'y', 'z'].foldlM (fun s c =>
        (handlePair o g junk (compName c 'r') (compName c 'i') s).bind (handleReal o g junk [c])) t) := by
    refine rel_foldlM ?_ _ _ _ h
    intro x y c hxy
    exact rel_bind (handlePair_like o g junk _ _ hxy) fun x' y' h' => handleReal_like o g junk _ h'
  have hc : ∀ rank n (l : List (Char × List ℝ × List ℝ)),
      Option.Rel LikeF (l.foldlM (handleComp o g junk rank n) s) (l.foldlM (handleComp o g junk rank n) t) := by
    intro rank n l
    refine rel_foldlM ?_ _ _ _ h
    intro x y c hxy
    exact complex_like o _ _ _ _ _ _ _ hxy
  split
  · exact hc _ _ _
  · exact hb

theorem handleFile_like (o : Opts) (junk : ℕ → ℝ) (f : H5) {c d : Cache} (hc : c.Ok) (hd : d.Ok) :
    Option.Rel LikeF (handleFile o junk f c) (handleFile o junk f d) := by
  unfold handleFile
  refine rel_bind (rel_same _) ?_
  rintro g _ rfl
  refine rel_bind (r := LikeF) ?_ fun x y h => handleVec_like o g junk h
  refine rel_foldlM ?_ _ _ _ ⟨rfl, rfl, hc, hd⟩
  intro x y n hxy
  exact rel_bind (handleReal_like o g junk n hxy) fun x' y' h' => handlePair_like o g junk _ _ h'

/-! ## C123 -/

theorem colon_unique : ∀ (a a' b b' : List Char), ':' ∉ a → ':' ∉ a' → a ++ ':' :: b = a' ++ ':' :: b' → a = a' ∧ b = b'
  | [], [], b, b', _, _, h => by simpa using h
  | [], x :: a', b, b', _, h2, h => by
    simp only [List.nil_append, List.cons_append, List.cons.injEq] at h
    exact absurd (by rw [← h.1]; exact List.mem_cons_self) h2
  | x :: a, [], b, b', h1, _, h => by
    simp only [List.nil_append, List.cons_append, List.cons.injEq] at h
    exact absurd (by rw [h.1]; exact List.mem_cons_self) h1
  | x :: a, y :: a', b, b', h1, h2, h => by
    simp only [List.cons_append, List.cons.injEq] at h
    obtain ⟨rfl, h⟩ := h
    obtain ⟨rfl, rfl⟩ := colon_unique a a' b b' (fun m => h1 (by simp [m])) (fun m => h2 (by simp [m])) h
    exact ⟨rfl, rfl⟩

theorem splitFname_names {arg file dname : List Char} (h : Names arg file dname) : splitFname arg = (file, dname) := by
  obtain ⟨hf, ⟨rfl, rfl⟩ | rfl⟩ := h
  · exact (C39_split arg).2 hf
  · obtain ⟨h1, h2⟩ := (C39_split (file ++ ':' :: dname)).1 (by simp)
    obtain ⟨e1, e2⟩ := colon_unique _ _ _ _ h2 hf h1
    exact Prod.ext e1 e2

theorem main_single {flags : List Flag} (h : ∀ f ∈ flags, Usable f) {arg file dname : List Char} (hn : Names arg file dname)
    (junk : ℕ → ℝ) (fs : FS) :
    main flags [arg] junk fs = handlePaths (after flags cfg0) junk (latest outFlag flags) [arg] fs cache0 := by
  unfold main
  rw [parse_go flags h]
  have : (after flags cfg0).out = latest outFlag flags := by simp [after, cfg0]
  simp [this]

/-- **C123, one file.**  Let the options be usable, the argument `file` or `file:dname`, the file present and ready to be
transformed with the options that apply to it (`Spec.options`: the last option of each kind counts, `-m` sets all three
directions, `-e` implies `-r`, `-P` gives the angle in degrees, a dataset named in the argument precedes over `-d`), and let
the file given with `-o`, if any, be another one.  Then the program finishes; it changes only the file given with `-o`, or
the input file if there is no `-o`; and that file holds what C91 says: each field resampled, under its name, with `-new`
added in the input file; all else in it is as before (nothing in a new file).  Missing: dataset names of more than 297
characters, see `C123_long_name_refuted`. -/
theorem C123_single_partial {flags : List Flag} (h : ∀ f ∈ flags, Usable f) {arg file dname : List Char}
    (hn : Names arg file dname) (hlen : (dataset flags dname).length ≤ 297) (junk : ℕ → ℝ) {fs : FS} {f : H5}
    (hf : fs (IO.addSuffix file) = some f) (hr : Ready (options flags true dname) f)
    (ho : ∀ p, latest outFlag flags = some p → IO.addSuffix p ≠ IO.addSuffix file) :
    ∃ fs' g R, main flags [arg] junk fs = .finished fs' ∧ (∀ p, p ≠ outPath flags (IO.addSuffix file) → fs' p = fs p) ∧
      fs' (outPath flags (IO.addSuffix file)) = some g ∧ IsCell (options flags true dname) f R ∧
      (∀ t dims F, Last (options flags true dname) f R (jobs (options flags true dname) f) t dims F →
        ∃ D, g (if (latest outFlag flags).isSome then t else t ++ "-new".toList) = some D ∧
          Shows (options flags true dname) R dims F D) ∧
      (∀ u, (∀ j ∈ jobs (options flags true dname) f, ∀ t dims F, Gives (options flags true dname) f R j t dims F →
          u ≠ if (latest outFlag flags).isSome then t else t ++ "-new".toList) →
        g u = if (latest outFlag flags).isSome then none else f u) := by
  obtain ⟨R, s, hR, hs, h1, h2, h3⟩ := C91_run_partial hr junk Reached.start
  have hb := (buffersOk_iff flags true dname).2 hlen
  rw [main_single h hn]
  have hsp := splitFname_names hn
  have hfo := fileOpts_first flags dname
  cases hout : latest outFlag flags with
  | none =>
    have hsame : (options flags true dname).same = true := by simp [options, hout]
    rw [hout] at hfo
    have e : handlePath (after flags cfg0) junk none arg fs cache0 =
        .ok (Function.update fs (IO.addSuffix file) (some s.inF)) s.cache := by
      unfold handlePath
      simp only [hsp, hf, hfo, hb, hs, if_true]
    refine ⟨Function.update fs (IO.addSuffix file) (some s.inF), s.inF, R, ?_, ?_, ?_, hR, ?_, ?_⟩
    · rw [handlePaths, e]; rfl
    · intro p hp
      rw [outPath, hout] at hp
      exact Function.update_of_ne hp _ _
    · rw [outPath, hout]; exact Function.update_self _ _ _
    · intro t dims F hl
      obtain ⟨D, hD, hS⟩ := h1 t dims F hl
      rw [hsame] at hD
      exact ⟨D, by simpa using hD, hS⟩
    · intro u hu
      have := h2 hsame u (fun j hj t dims F hg => by simpa using hu j hj t dims F hg)
      simpa using this
  | some q =>
    have hsame : (options flags true dname).same = false := by simp [options, hout]
    rw [hout] at hfo
    have e : handlePath (after flags cfg0) junk (some q) arg fs cache0 =
        .ok (Function.update fs (IO.addSuffix q) (some s.outF)) s.cache := by
      unfold handlePath
      simp only [hsp, hf, hfo, hb, hs, if_true, if_neg (ho q hout)]
    refine ⟨Function.update fs (IO.addSuffix q) (some s.outF), s.outF, R, ?_, ?_, ?_, hR, ?_, ?_⟩
    · rw [handlePaths, e]; rfl
    · intro p hp
      rw [outPath, hout] at hp
      exact Function.update_of_ne hp _ _
    · rw [outPath, hout]; exact Function.update_self _ _ _
    · intro t dims F hl
      obtain ⟨D, hD, hS⟩ := h1 t dims F hl
      rw [hsame] at hD
      exact ⟨D, by simpa using hD, hS⟩
    · intro u hu
      have := (h3 hsame).2 u (fun j hj dims F hg => by
        have := hu j hj u dims F hg
        simp at this)
      simpa using this

theorem parse_withoutOut (flags : List Flag) (c : Cfg) :
    parse (withoutOut flags) { c with out := none } =
      match parse flags c with
      | .go c' => .go { c' with out := none }
      | .exit ok => .exit ok := by
  induction flags generalizing c with
  | nil => rfl
  | cons f l ih =>
    cases hf : outFlag f with
    | some s =>
      obtain rfl : f = .out s := by
        cases f <;> simp [outFlag] at hf
        rw [hf]
      have e : withoutOut (Flag.out s :: l) = withoutOut l := by simp [withoutOut, outFlag]
      rw [e]
      exact ih { c with out := some s }
    | none =>
      have e : withoutOut (f :: l) = f :: withoutOut l := by simp [withoutOut, hf]
      rw [e, parse, parse]
      have key : parseFlag { c with out := none } f =
          match parseFlag c f with
          | .go c' => .go { c' with out := none }
          | .exit ok => .exit ok := by
        cases f with
        | out s => simp [outFlag] at hf
        | dir v => cases v <;> rfl
        | n r =>
          unfold parseFlag
          by_cases hr : 0 < r <;> simp [hr]
        | _ => rfl
      rw [key]
      cases parseFlag c f with
      | go c' => exact ih c'
      | exit ok => rfl

theorem handlePath_like (cfg : Cfg) (junk : ℕ → ℝ) (out : Option (List Char)) (arg : List Char) (fs : FS) {c d : Cache}
    (hc : c.Ok) (hd : d.Ok) :
    (∃ fs' c' d', c'.Ok ∧ d'.Ok ∧ handlePath cfg junk out arg fs c = .ok fs' c' ∧ handlePath cfg junk out arg fs d = .ok fs' d') ∨
      (handlePath cfg junk out arg fs c = .stopped ∧ handlePath cfg junk out arg fs d = .stopped) ∨
      (handlePath cfg junk out arg fs c = .overflow ∧ handlePath cfg junk out arg fs d = .overflow) := by
  unfold handlePath
  cases hfs : fs (IO.addSuffix (splitFname arg).1) with
  | none => simp [hfs]
  | some f =>
    have hl := handleFile_like (fileOpts cfg (splitFname arg).2 out) junk f hc hd
    cases out with
    | none =>
      by_cases hb : buffersOk (fileOpts cfg (splitFname arg).2 none) = true
      · generalize hx : handleFile (fileOpts cfg (splitFname arg).2 none) junk f c = x at hl
        generalize hy : handleFile (fileOpts cfg (splitFname arg).2 none) junk f d = y at hl
        cases hl with
        | none => right; left; simp only [hfs, hb, hx, hy, if_true, and_self]
        | @some s t h =>
          left
          refine ⟨_, s.cache, t.cache, h.2.2.1, h.2.2.2, by simp only [hfs, hb, hx, if_true]; rfl,
            by simp only [hfs, hb, hy, if_true, h.1]⟩
      · simp [hfs, hb]
    | some p =>
      by_cases hp : IO.addSuffix p = IO.addSuffix (splitFname arg).1
      · simp [hfs, hp]
      by_cases hb : buffersOk (fileOpts cfg (splitFname arg).2 (some p)) = true
      · generalize hx : handleFile (fileOpts cfg (splitFname arg).2 (some p)) junk f c = x at hl
        generalize hy : handleFile (fileOpts cfg (splitFname arg).2 (some p)) junk f d = y at hl
        cases hl with
        | none => right; left; simp only [hfs, hb, hx, hy, if_true, if_neg hp, and_self]
        | @some s t h =>
          left
          refine ⟨_, s.cache, t.cache, h.2.2.1, h.2.2.2, by simp only [hfs, hb, hx, if_true, if_neg hp]; rfl,
            by simp only [hfs, hb, hy, if_true, h.2.1, if_neg hp]⟩
      · simp [hfs, hb, hp]

theorem handlePaths_like (cfg : Cfg) (junk : ℕ → ℝ) (l : List (List Char)) :
    ∀ (out : Option (List Char)) (fs : FS) (c d : Cache), c.Ok → d.Ok →
      handlePaths cfg junk out l fs c = handlePaths { cfg with out := none } junk out l fs d := by
  induction l with
  | nil => intros; rfl
  | cons a l ih =>
    intro out fs c d hc hd
    rw [handlePaths, handlePaths]
    have e : handlePath { cfg with out := none } junk out a fs d = handlePath cfg junk out a fs d := rfl
    rw [e]
    rcases handlePath_like cfg junk out a fs hc hd with ⟨fs', c', d', hc', hd', e1, e2⟩ | ⟨e1, e2⟩ | ⟨e1, e2⟩
    · rw [e1, e2]; exact ih none fs' c' d' hc' hd'
    · rw [e1, e2]
    · rw [e1, e2]

theorem handlePath_ok (cfg : Cfg) (junk : ℕ → ℝ) (out : Option (List Char)) (arg : List Char) (fs : FS) {c : Cache} (hc : c.Ok)
    {fs' : FS} {c' : Cache} (h : handlePath cfg junk out arg fs c = .ok fs' c') : c'.Ok := by
  rcases handlePath_like cfg junk out arg fs hc hc with ⟨fs1, c1, d1, h1, h2, e1, e2⟩ | ⟨e1, e2⟩ | ⟨e1, e2⟩
  · rw [e1] at h
    injection h with h3 h4
    rw [← h4]; exact h1
  · rw [e1] at h; cases h
  · rw [e1] at h; cases h

theorem cache0_ok : cache0.Ok := C37_history Reached.start

/-- **C123, several files.**  A run with several files is the run with the first followed, if that finished, by a run with
the others without `-o`: nothing else is carried from file to file, whatever the options, the files and their contents. -/
theorem C123_files (flags : List Flag) (a b : List Char) (l : List (List Char)) (junk : ℕ → ℝ) (fs : FS) :
    main flags (a :: b :: l) junk fs = andThen (main flags [a] junk fs) fun fs1 => main (withoutOut flags) (b :: l) junk fs1 := by
  have hw := parse_withoutOut flags cfg0
  have h0 : ({ cfg0 with out := none } : Cfg) = cfg0 := rfl
  rw [h0] at hw
  unfold main
  cases hp : parse flags cfg0 with
  | exit ok => rfl
  | go cfg =>
    rw [hp] at hw
    simp only [hw, reduceCtorEq, if_false]
    rw [handlePaths, handlePaths]
    cases hh : handlePath cfg junk cfg.out a fs cache0 with
    | stopped => rfl
    | overflow => rfl
    | ok fs' c' =>
      exact handlePaths_like cfg junk (b :: l) none fs' c' cache0 (handlePath_ok cfg junk _ a fs cache0_ok hh) cache0_ok

/-- **C123, leaving early.**  At the first option that is not usable the program ends without touching a file: with success
for `-h` and `-V`, with failure otherwise.  Without a file it fails. -/
theorem C123_exit (pre : List Flag) (h : ∀ f ∈ pre, Usable f) (args : List (List Char)) (junk : ℕ → ℝ) (fs : FS) :
    (∀ f post, ¬ Usable f → main (pre ++ f :: post) args junk fs = .exit (isInfo f)) ∧ main pre [] junk fs = .exit false := by
  constructor
  · intro f post hf
    unfold main
    rw [parse_stop pre h f hf]
  · unfold main
    rw [parse_go pre h]
    rfl

theorem handlePath_touches {cfg : Cfg} {junk : ℕ → ℝ} {out : Option (List Char)} {arg : List Char} {fs fs' : FS} {c c' : Cache}
    (h : handlePath cfg junk out arg fs c = .ok fs' c') (p : List Char) (hp : p ≠ IO.addSuffix (out.getD (splitFname arg).1)) :
    fs' p = fs p := by
  unfold handlePath at h
  cases hfs : fs (IO.addSuffix (splitFname arg).1) with
  | none => simp [hfs] at h
  | some f =>
    simp only [hfs] at h
    cases out with
    | none =>
      simp only [Option.getD_none] at h hp
      split_ifs at h
      split at h
      · cases h
      · injection h with h1 h2
        rw [← h1]
        exact Function.update_of_ne hp _ _
    | some q =>
      simp only [Option.getD_some] at h hp
      split_ifs at h
      split at h
      · cases h
      · injection h with h1 h2
        rw [← h1]
        exact Function.update_of_ne hp _ _

theorem handlePaths_touches {cfg : Cfg} {junk : ℕ → ℝ} (l : List (List Char)) :
    ∀ (out : Option (List Char)) (fs fs' : FS) (c : Cache),
      (handlePaths cfg junk out l fs c = .finished fs' ∨ handlePaths cfg junk out l fs c = .stopped fs') →
      ∀ p, (∀ q, out = some q → p ≠ IO.addSuffix q) →
        (∀ a ∈ (if out.isSome then l.tail else l), p ≠ IO.addSuffix (splitFname a).1) → fs' p = fs p := by
  induction l with
  | nil =>
    rintro out fs fs' c (h | h) p _ _ <;> rw [handlePaths] at h
    · injection h with h; rw [h]
    · cases h
  | cons a l ih =>
    intro out fs fs' c h p h1 h2
    rw [handlePaths] at h
    cases hh : handlePath cfg junk out a fs c with
    | stopped =>
      rw [hh] at h
      rcases h with h | h
      · cases h
      · injection h with h; rw [h]
    | overflow =>
      rw [hh] at h
      rcases h with h | h <;> cases h
    | ok fs1 c1 =>
      rw [hh] at h
      have e1 : fs1 p = fs p := by
        refine handlePath_touches hh p ?_
        cases out with
        | none => exact h2 a (by simp)
        | some q => exact h1 q rfl
      rw [ih none fs1 fs' c1 h p (by simp) ?_, e1]
      intro b hb
      simp only [Option.isSome_none, Bool.false_eq_true, if_false] at hb
      refine h2 b ?_
      split_ifs
      · exact hb
      · exact List.mem_cons_of_mem _ hb

/-- **C123, other files.**  However the program ends (short of a memory error), the only files it has changed are the one
given with `-o` and those named as arguments, the first argument excepted if there is an `-o`.  (If it stops, the file being
worked on may be incomplete; the model's `stopped` says what holds for the others.) -/
theorem C123_touches (flags : List Flag) (args : List (List Char)) (junk : ℕ → ℝ) (fs fs' : FS)
    (h : main flags args junk fs = .finished fs' ∨ main flags args junk fs = .stopped fs') (p : List Char)
    (h1 : ∀ q, latest outFlag flags = some q → p ≠ IO.addSuffix q)
    (h2 : ∀ a ∈ (if (latest outFlag flags).isSome then args.tail else args), ∀ file dname, Names a file dname →
      p ≠ IO.addSuffix file) : fs' p = fs p := by
  by_cases hu : ∀ f ∈ flags, Usable f
  · have e : parse flags cfg0 = .go (after flags cfg0) := parse_go flags hu cfg0
    have eo : (after flags cfg0).out = latest outFlag flags := by simp [after, cfg0]
    unfold main at h
    rw [e] at h
    by_cases ha : args = []
    · simp [ha] at h
    · simp only [if_neg ha, eo] at h
      refine handlePaths_touches args _ fs fs' cache0 h p h1 ?_
      intro a hm
      refine h2 a hm (splitFname a).1 (splitFname a).2 ?_
      by_cases hc : ':' ∈ a
      · obtain ⟨e1, e2⟩ := (C39_split a).1 hc
        exact ⟨e2, .inr e1.symm⟩
      · rw [(C39_split a).2 hc]
        exact ⟨hc, .inl ⟨rfl, rfl⟩⟩
  · exfalso
    have : ∃ ok, parse flags cfg0 = .exit ok := by
      clear h h1 h2
      generalize cfg0 = c
      induction flags generalizing c with
      | nil => simp at hu
      | cons f l ih =>
        by_cases hf : Usable f
        · have hl : ¬ ∀ g ∈ l, Usable g := fun hl => hu (by
            intro g hg
            rcases List.mem_cons.1 hg with rfl | hg
            · exact hf
            · exact hl g hg)
          have := parse_usable [f] (by simpa using hf) l c
          rw [List.singleton_append] at this
          rw [this]
          exact ih hl _
        · exact ⟨_, parse_stop [] (by simp) f hf l c⟩
    obtain ⟨ok, e⟩ := this
    unfold main at h
    rw [e] at h
    rcases h with h | h <;> cases h

/-- A file system with one file, `f.h5`. -/
def exFS : FS := fun p => if p = "f.h5".toList then some exFile else none

/-- **C123 fails for long dataset names**: a name of 298 characters given with `-d` is written beyond the end of an array of
300 characters, for a file that is otherwise ready to be transformed. -/
theorem C123_long_name_refuted : ∃ (flags : List Flag) (fs : FS) (f : H5), (∀ g ∈ flags, Usable g) ∧
    Names "f".toList "f".toList [] ∧ fs (IO.addSuffix "f".toList) = some f ∧ Ready (options flags true []) f ∧
    ∀ junk, main flags ["f".toList] junk fs = .overflow := by
  have hp : IO.addSuffix "f".toList = "f.h5".toList := by decide +kernel
  have hN : Names "f".toList "f".toList [] := ⟨by decide, .inl ⟨rfl, rfl⟩⟩
  have hu : ∀ g ∈ [Flag.data (List.replicate 298 'a')], Usable g := by
    intro g hg
    rw [List.mem_singleton] at hg
    subst hg
    trivial
  have hfs : exFS (IO.addSuffix "f".toList) = some exFile := by rw [hp]; exact if_pos rfl
  refine ⟨[.data (List.replicate 298 'a')], exFS, exFile, hu, hN, hfs, exFile_ready _ rfl, ?_⟩
  intro junk
  rw [main_single hu hN]
  have hfo := fileOpts_first [Flag.data (List.replicate 298 'a')] []
  have hout : latest outFlag [Flag.data (List.replicate 298 'a')] = none := rfl
  rw [hout] at hfo ⊢
  have hb : buffersOk (options [Flag.data (List.replicate 298 'a')] true []) = false := by
    rw [← Bool.not_eq_true, buffersOk_iff]
    have : dataset [Flag.data (List.replicate 298 'a')] [] = List.replicate 298 'a' := rfl
    rw [this, List.length_replicate]
    omega
  have e : handlePath (after [Flag.data (List.replicate 298 'a')] cfg0) junk none "f".toList exFS cache0 = .overflow := by
    unfold handlePath
    simp only [splitFname_names hN, hfs, hfo, hb, Bool.false_eq_true, if_false]
  rw [handlePaths, e]

/-- The hypotheses of `C123_single_partial` hold for `mpb-data -m 2 -T -x 3 -e … -o out f:data`. -/
example : ∃ (flags : List Flag) (fs : FS) (f : H5), (∀ g ∈ flags, Usable g) ∧ Names "f:data".toList "f".toList "data".toList ∧
    (dataset flags "data".toList).length ≤ 297 ∧ fs (IO.addSuffix "f".toList) = some f ∧
    Ready (options flags true "data".toList) f ∧
    (∀ p, latest outFlag flags = some p → IO.addSuffix p ≠ IO.addSuffix "f".toList) ∧
    (options flags true "data".toList).mult = ⟨3, 2, 2⟩ ∧ (options flags true "data".toList).same = false := by
  refine ⟨[.m 2, .transpose, .x 3, .rect, .phase 90, .n 16, .out "out".toList], exFS, exFile, ?_, ⟨by decide, .inr rfl⟩, ?_, ?_,
    exFile_ready _ rfl, ?_, rfl, rfl⟩
  · simp [Usable]
  · decide
  · have hp : IO.addSuffix "f".toList = "f.h5".toList := by decide +kernel
    rw [hp]; exact if_pos rfl
  · intro p h
    obtain rfl : "out".toList = p := Option.some.inj h
    decide +kernel

end Mpb.MpbData

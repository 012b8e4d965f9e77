import Verif.MpbData.FileSpec

/-! # Lemmas for `mpb-data` on whole files -/

namespace Mpb.MpbData
open Spec

theorem sizes_cases {a : DSet} {o : Opts} (h : Sound o a) :
    (∃ x, a.dims = [x] ∧ 0 < x) ∨ (∃ x y, a.dims = [x, y] ∧ 0 < x ∧ 0 < y) ∨
      ∃ x y z, a.dims = [x, y, z] ∧ 0 < x ∧ 0 < y ∧ 0 < z := by
  have h1 := h.low
  have h2 := h.high
  have h3 := h.pos
  rcases e : a.dims with _ | ⟨x, _ | ⟨y, _ | ⟨z, _ | ⟨w, l⟩⟩⟩⟩
  · rw [e] at h1; simp at h1
  · exact .inl ⟨x, rfl, h3 x (by simp [e])⟩
  · exact .inr (.inl ⟨x, y, rfl, h3 x (by simp [e]), h3 y (by simp [e])⟩)
  · exact .inr (.inr ⟨x, y, z, rfl, h3 x (by simp [e]), h3 y (by simp [e]), h3 z (by simp [e])⟩)
  · rw [e] at h2; simp at h2; omega

theorem sound_len {a : DSet} {o : Opts} (h : Sound o a) :
    a.data.length = (sizes a.dims).1 * (sizes a.dims).2.1 * (sizes a.dims).2.2 ∧
      0 < (sizes a.dims).1 ∧ 0 < (sizes a.dims).2.1 ∧ 0 < (sizes a.dims).2.2 := by
  rw [h.full]
  rcases sizes_cases h with ⟨x, e, h0⟩ | ⟨x, y, e, h0, h1⟩ | ⟨x, y, z, e, h0, h1, h2⟩ <;> rw [e] <;>
    simp [sizes, *, mul_assoc]

theorem trunc_toNat (x : ℝ) : (trunc x).toNat = ⌊x⌋₊ := by
  unfold trunc
  split_ifs with h
  · rfl
  · have hx : x < 0 := not_le.1 h
    rw [Nat.floor_of_nonpos hx.le]
    have : ⌈x⌉ ≤ 0 := by rw [Int.ceil_le]; exact_mod_cast hx.le
    omega

theorem outDim_eq (o : Opts) (rank i : ℕ) (c : V3 ℝ) (n : ℕ) (m : ℝ) : outDim o rank i c n m = points o (i < rank) c n m := by
  unfold outDim points
  by_cases h : rank ≤ i
  · rw [if_pos h, if_neg (by omega)]
  · have h' : i < rank := by omega
    rw [if_neg h, if_pos h', max_comm]
    split_ifs <;> rw [trunc_toNat]

theorem points_pos (o : Opts) (P : Prop) [Decidable P] (c : V3 ℝ) (n : ℕ) (m : ℝ) : 0 < points o P c n m := by
  unfold points
  split_ifs <;> omega

/-- The geometry the program computes. -/
structure GeoOk (o : Opts) (f : H5) (R : M3 ℝ) (g : Geo) : Prop where
  rout : g.rout = multiply o.mult R
  map : g.map = coordMap (lattice f) (multiply o.mult R)
  k : g.k.getD ⟨0, 0, 0⟩ = wave f
  cart : ∀ v : V3 ℝ, g.cart.mulVec v = ⟨V3.dot (axes o R 0) v, V3.dot (axes o R 1) v, V3.dot (axes o R 2) v⟩

theorem latticeVectors_eq (f : H5) : latticeVectors f = vectors f := by
  unfold latticeVectors vectors stored
  cases f "lattice vectors".toList with
  | none => rfl
  | some d =>
    rcases d with ⟨dims, data⟩
    dsimp only
    by_cases h : dims = [3, 3] ∧ data.length = [3, 3].prod
    · obtain ⟨rfl, h⟩ := h
      rw [if_pos ⟨rfl, h⟩]
      match data, h with
      | [a, b, c, d, e, f, g, h, i], _ => rfl
    · rw [if_neg h]
      split
      · rename_i heq
        cases heq
        simp at h
      · rfl

theorem vectorAttr_eq (f : H5) (name : String) : vectorAttr f name = triple f name := by
  unfold vectorAttr triple stored
  cases f name.toList with
  | none => rfl
  | some d =>
    rcases d with ⟨dims, data⟩
    dsimp only
    by_cases h : dims = [3] ∧ data.length = [3].prod
    · obtain ⟨rfl, h⟩ := h
      rw [if_pos ⟨rfl, h⟩]
      match data, h with
      | [a, b, c], _ => rfl
    · rw [if_neg h]
      split
      · rename_i heq
        cases heq
        simp at h
      · rfl

theorem names_eq (o : Opts) : names o = wanted o := by
  unfold names wanted
  generalize o.dataName = d
  have h : dataNames = "data".toList :: ["epsilon", "epsilon_inverse"].flatMap fun t =>
      ["xx", "xy", "xz", "yy", "yz", "zz"].map fun c => t.toList ++ '.' :: c.toList := by decide +kernel
  match d with
  | none => exact h
  | some [] => exact h
  | some (c :: l) => rfl

theorem inLattice_fst (f : H5) : (inLattice f).1 = lattice f := by
  unfold inLattice lattice
  rw [latticeVectors_eq, vectorAttr_eq, vectorAttr_eq]
  cases triple f "lattice copies" with
  | none =>
    show vectors f = _
    dsimp only [Option.getD_none]
    ext <;> simp [V3.smul]
  | some q => rfl

theorem inLattice_snd (f : H5) : (inLattice f).2.getD ⟨0, 0, 0⟩ = wave f := by
  unfold inLattice wave
  rw [vectorAttr_eq, vectorAttr_eq]
  cases triple f "lattice copies" with
  | none =>
    show (triple f "Bloch wavevector").getD ⟨0, 0, 0⟩ = _
    dsimp only [Option.getD_none]
    ext <;> simp
  | some q =>
    cases triple f "Bloch wavevector" with
    | none => dsimp only [Option.map_none, Option.getD_none, Option.getD_some]; ext <;> simp
    | some k => rfl

theorem swapRows_mulVec (m : M3 ℝ) (v : V3 ℝ) :
    (swapRows m).mulVec v = ⟨(m.mulVec v).y, (m.mulVec v).x, (m.mulVec v).z⟩ := by
  unfold swapRows M3.transpose M3.mulVec
  rfl

theorem rectify_ready {o : Opts} {f : H5} (h : Ready o f) (hr : o.rect = true) :
    ∃ R, rectify (lattice f) o.ve = some R ∧ Orthogonal R ∧ volume R ≠ 0 := by
  cases hv : o.ve with
  | none =>
    obtain ⟨R, e, ho, hvol, -⟩ := C38_rectify _ h.cell
    exact ⟨R, e, ho, by rw [hvol]; exact h.cell⟩
  | some v =>
    obtain ⟨h1, h2⟩ := h.dir v hr hv
    obtain ⟨R, q, e, ho, hvol, -⟩ := C38_direction_partial _ h.cell v h1 h2
    exact ⟨R, e, ho, by rw [hvol]; exact h.cell⟩

theorem geometry_ready {o : Opts} {f : H5} (h : Ready o f) :
    ∃ R g, IsCell o f R ∧ geometry o f = some g ∧ GeoOk o f R g := by
  by_cases hr : o.rect = true
  · obtain ⟨R, e, ho, hv⟩ := rectify_ready h hr
    refine ⟨R, _, by rw [IsCell, if_pos hr]; exact e, by
      unfold geometry; rw [inLattice_fst]; simp only [hr, if_true, e, Option.map_some]; rfl, rfl, rfl, inLattice_snd f, ?_⟩
    intro v
    have := C38_components R ho hv v
    by_cases ht : o.transpose = true
    · simp only [ht, if_true, swapRows_mulVec, this]
      simp [axes, ht, hr, Equiv.swap_apply_def]
    · simp only [ht, this]
      simp [axes, ht, hr, this]
  · refine ⟨lattice f, _, by rw [IsCell, if_neg hr], by
      unfold geometry; rw [inLattice_fst]; simp only [hr]; rfl, rfl, rfl, inLattice_snd f, ?_⟩
    intro v
    by_cases ht : o.transpose = true
    · simp only [ht, if_true, swapRows_mulVec]
      simp [axes, ht, hr, Equiv.swap_apply_def, M3.mulVec, V3.dot]
    · simp [axes, ht, hr, M3.mulVec, V3.dot]

theorem outDims_eq {o : Opts} {f : H5} {R : M3 ℝ} {g : Geo} (hg : GeoOk o f R g) (dims : List ℕ) :
    outDims o g dims.length (sizes dims) = grid o R dims := by
  unfold outDims grid
  simp only [outDim_eq, hg.rout]
  rfl

/-- The output file. -/
def tgt (o : Opts) (s : FSt) : H5 := if o.same then s.inF else s.outF

theorem outName_inj {o : Opts} {a b : List Char} (h : outName o a = outName o b) : a = b := by
  unfold outName at h
  split_ifs at h
  · exact List.append_cancel_right h
  · exact h

theorem tgt_put (o : Opts) (s : FSt) (n : List Char) (d : DSet) : tgt o (put o s n d) = Function.update (tgt o s) n (some d) := by
  unfold tgt put
  split_ifs <;> rfl

theorem tgt_cache (o : Opts) (s : FSt) (c : Cache) : tgt o { s with cache := c } = tgt o s := rfl

theorem put_cache (o : Opts) (s : FSt) (n : List Char) (d : DSet) : (put o s n d).cache = s.cache := by
  unfold put; split_ifs <;> rfl

theorem put_inF (o : Opts) (s : FSt) (n : List Char) (d : DSet) (h : o.same = false) : (put o s n d).inF = s.inF := by
  unfold put; simp [h]

theorem grid_pos (o : Opts) (R : M3 ℝ) (dims : List ℕ) :
    0 < (grid o R dims).1 ∧ 0 < (grid o R dims).2.1 ∧ 0 < (grid o R dims).2.2 :=
  ⟨points_pos _ _ _ _ _, points_pos _ _ _ _ _, points_pos _ _ _ _ _⟩

theorem take_prod {o : Opts} {a : DSet} (R : M3 ℝ) (h : Sound o a) :
    ((outDims2 o (grid o R a.dims)).take a.dims.length).prod =
      (grid o R a.dims).1 * (grid o R a.dims).2.1 * (grid o R a.dims).2.2 := by
  have h2 := h.two
  unfold outDims2
  rcases sizes_cases h with ⟨x, e, -⟩ | ⟨x, y, e, -⟩ | ⟨x, y, z, e, -⟩
  · have : o.transpose = false := by
      rcases ht : o.transpose with _ | _
      · rfl
      · have := h2 ht; rw [e] at this; simp at this
    rw [e]
    simp [this, grid, points]
  · rw [e]
    split_ifs <;> simp [grid, points]
    rw [mul_comm]
  · rw [e]
    split_ifs <;> simp
    · ring
    · ring

theorem newData_shows {o : Opts} {a : DSet} {R : M3 ℝ} (h : Sound o a) {out : ℕ → ℝ} {F : ℕ → ℕ → ℕ → ℝ}
    (hout : ∀ i j k, i < (grid o R a.dims).1 → j < (grid o R a.dims).2.1 → k < (grid o R a.dims).2.2 →
      out (if o.transpose then (j * (grid o R a.dims).1 + i) * (grid o R a.dims).2.2 + k
        else (i * (grid o R a.dims).2.1 + j) * (grid o R a.dims).2.2 + k) = F i j k) :
    ∃ D, newData a.dims.length (outDims2 o (grid o R a.dims)) out = some D ∧ Shows o R a.dims F D := by
  have hl := h.low
  refine ⟨⟨(outDims2 o (grid o R a.dims)).take a.dims.length,
    (List.range ((outDims2 o (grid o R a.dims)).take a.dims.length).prod).map out⟩, ?_, ?_⟩
  · rw [newData, if_neg (by omega)]
  · refine ⟨rfl, by simp [take_prod R h], ?_⟩
    intro i j k hi hj hk
    rw [take_prod R h]
    have hlt : (if o.transpose then (j * (grid o R a.dims).1 + i) * (grid o R a.dims).2.2 + k
        else (i * (grid o R a.dims).2.1 + j) * (grid o R a.dims).2.2 + k) <
        (grid o R a.dims).1 * (grid o R a.dims).2.1 * (grid o R a.dims).2.2 := by
      have := ijk_lt (P := mapParams o ⟨R, R, R, none⟩ (1, 1, 1) (grid o R a.dims)) (i := i) (j := j) (k := k) hi hj hk
      exact this
    rw [List.getElem?_map, List.getElem?_range hlt]
    simp [hout i j k hi hj hk]

/-! ## The three kinds of fields -/

section
variable {o : Opts} {f : H5} {R : M3 ℝ} {g : Geo} (hg : GeoOk o f R g) (junk : ℕ → ℝ)
include hg

theorem params_pos {a : DSet} (h : Sound o a) : (mapParams o g (sizes a.dims) (grid o R a.dims)).Pos := by
  obtain ⟨-, h0, h1, h2⟩ := sound_len h
  obtain ⟨m0, m1, m2⟩ := grid_pos o R a.dims
  exact ⟨h0, h1, h2, m0, m1, m2⟩

theorem handleReal_eq {n : List Char} {s : FSt} (hs : s.inF n = f n) (hf : ∀ a, f n = some a → Sound o a) :
    (f n = none ∧ handleReal o g junk n s = some s) ∨
      ∃ a D, f n = some a ∧ handleReal o g junk n s = some (put o s (outName o n) D) ∧ Shows o R a.dims (realAt o f R a) D := by
  unfold handleReal readData
  rw [hs]
  cases e : f n with
  | none => left; simp
  | some a =>
    right
    have h := hf a e
    obtain ⟨out, ho, hv, -⟩ := C36_real (params_pos hg h) a.data (sound_len h).1 junk
    obtain ⟨D, hD, hS⟩ := newData_shows (R := R) h (out := out) (F := realAt o f R a) (by
      intro i j k hi hj hk
      refine (hv i j k hi hj hk).trans ?_
      simp only [mapParams, hg.map]
      rfl)
    refine ⟨a, D, rfl, ?_, hS⟩
    have hd := outDims_eq hg a.dims
    simp only [if_pos h.high, Option.bind_some]
    show (mapDataR (mapParams o g (sizes a.dims) (outDims o g a.dims.length (sizes a.dims))) a.data junk).bind _ = _
    simp only [show (a.dims.getD 0 1, a.dims.getD 1 1, a.dims.getD 2 1) = sizes a.dims from rfl, hd, ho, Option.bind_some, hD,
      Option.map_some]

/-- The part common to complex scalar fields and vector components. -/
theorem complex_part {a b : DSet} (ha : Sound o a) (hb : b.dims = a.dims) (hbl : b.data.length = a.data.length)
    {c : Cache} (hc : c.Ok) :
    ∃ res Dr Di, mapDataC (mapParams o g (sizes a.dims) (grid o R a.dims)) (toC a.data b.data)
        (fun x => ⟨junk x, junk x⟩) c = some res ∧ res.2.Ok ∧
      newData a.dims.length (outDims2 o (grid o R a.dims)) (fun x => (o.scaleby * res.1 x).re) = some Dr ∧
      newData a.dims.length (outDims2 o (grid o R a.dims)) (fun x => (o.scaleby * res.1 x).im) = some Di ∧
      Shows o R a.dims (fun i j k => (cplxAt o f R a b i j k).re) Dr ∧
      Shows o R a.dims (fun i j k => (cplxAt o f R a b i j k).im) Di := by
  have hlen : (toC a.data b.data).length = (sizes a.dims).1 * (sizes a.dims).2.1 * (sizes a.dims).2.2 := by
    rw [← (sound_len ha).1]
    simp [toC, hbl]
  obtain ⟨out, c', ho, hc', hv, -⟩ := C37_complex (params_pos hg ha) (toC a.data b.data) hlen
    (fun x => ⟨junk x, junk x⟩) c hc
  have hk : (mapParams o g (sizes a.dims) (grid o R a.dims)).k = wave f := hg.k
  have hval : ∀ i j k, i < (grid o R a.dims).1 → j < (grid o R a.dims).2.1 → k < (grid o R a.dims).2.2 →
      o.scaleby * out (if o.transpose then (j * (grid o R a.dims).1 + i) * (grid o R a.dims).2.2 + k
        else (i * (grid o R a.dims).2.1 + j) * (grid o R a.dims).2.2 + k) = cplxAt o f R a b i j k := by
    intro i j k hi hj hk'
    have := hv i j k hi hj hk'
    rw [hk] at this
    refine (congrArg (o.scaleby * ·) this).trans ?_
    simp only [mapParams, hg.map]
    rfl
  obtain ⟨Dr, h1, h2⟩ := newData_shows (R := R) ha (out := fun x => (o.scaleby * out x).re)
    (F := fun i j k => (cplxAt o f R a b i j k).re) (fun i j k hi hj hk' => by rw [← hval i j k hi hj hk'])
  obtain ⟨Di, h3, h4⟩ := newData_shows (R := R) ha (out := fun x => (o.scaleby * out x).im)
    (F := fun i j k => (cplxAt o f R a b i j k).im) (fun i j k hi hj hk' => by rw [← hval i j k hi hj hk'])
  exact ⟨(out, c'), Dr, Di, ho, hc', h1, h3, h2, h4⟩

theorem handlePair_eq {p q : List Char} {s : FSt} (hp : s.inF p = f p) (hq : s.inF q = f q) (hc : s.cache.Ok)
    (hfp : ∀ a, f p = some a → Sound o a) (hfq : ∀ a, f q = some a → Sound o a)
    (hsame : ∀ a b, f p = some a → f q = some b → a.dims = b.dims) :
    ((f p = none ∨ f q = none) ∧ handlePair o g junk p q s = some s) ∨
      ∃ a b c' Dr Di, f p = some a ∧ f q = some b ∧ c'.Ok ∧
        handlePair o g junk p q s = some (put o (put o { s with cache := c' } (outName o p) Dr) (outName o q) Di) ∧
        Shows o R a.dims (fun i j k => (cplxAt o f R a b i j k).re) Dr ∧
        Shows o R a.dims (fun i j k => (cplxAt o f R a b i j k).im) Di := by
  unfold handlePair handlePair.readData' readData
  rw [hp, hq]
  cases e : f p with
  | none => left; simp
  | some a =>
    have ha := hfp a e
    have hl : a.dims.length ≠ 0 := by have := ha.low; omega
    cases e' : f q with
    | none => left; simp [ha.high, hl]
    | some b =>
      right
      have hb := hfq b e'
      have hd : b.dims = a.dims := (hsame a b e e').symm
      have hbl : b.data.length = a.data.length := by rw [ha.full, hb.full, hd]
      obtain ⟨res, Dr, Di, h1, h2, h3, h4, h5, h6⟩ := complex_part hg junk ha hd hbl hc
      refine ⟨a, b, res.2, Dr, Di, rfl, rfl, h2, ?_, h5, h6⟩
      simp only [hd, if_pos ha.high, Option.bind_some, if_true, lt_irrefl, or_false, if_neg hl]
      simp only [show (a.dims.getD 0 1, a.dims.getD 1 1, a.dims.getD 2 1) = sizes a.dims from rfl, outDims_eq hg a.dims, h1,
        Option.bind_some, h3, h4, Option.map_some]

end

/-! ## Vector fields -/

theorem sample_lin (near : Bool) (n0 n1 n2 : ℕ) (g0 g1 g2 : ℤ → ℤ → ℤ → ℂ) (α β γ : ℝ) (p : V3 ℝ) :
    Spec.sample near n0 n1 n2 (fun i j k => α * g0 i j k + β * g1 i j k + γ * g2 i j k) p =
      α * Spec.sample near n0 n1 n2 g0 p + β * Spec.sample near n0 n1 n2 g1 p + γ * Spec.sample near n0 n1 n2 g2 p := by
  unfold Spec.sample
  cases near
  · simp only [Bool.false_eq_true, if_false, Spec.trilin, Spec.lin, Complex.real_smul]
    ring
  · simp only [if_true, Spec.trinear, Spec.near]
    split_ifs <;> rfl

/-- A linear combination of three complex fields. -/
def combine (u : V3 ℝ) (N : ℕ) (x y z : List ℝ) : List ℝ :=
  (List.range N).map fun i => V3.dot u ⟨x.getD i 0, y.getD i 0, z.getD i 0⟩

theorem toC_getD {x y : List ℝ} (h : x.length = y.length) (i : ℕ) : (toC x y).getD i 0 = ⟨x.getD i 0, y.getD i 0⟩ := by
  unfold toC
  rw [List.getD_eq_getElem?_getD, List.getD_eq_getElem?_getD, List.getD_eq_getElem?_getD, List.getElem?_zipWith]
  by_cases hi : i < x.length
  · rw [List.getElem?_eq_getElem hi, List.getElem?_eq_getElem (h ▸ hi)]; simp
  · rw [List.getElem?_eq_none (by omega), List.getElem?_eq_none (by omega)]; simp; rfl

theorem combine_getD (u : V3 ℝ) {N i : ℕ} (hi : i < N) (x y z : List ℝ) :
    (combine u N x y z).getD i 0 = V3.dot u ⟨x.getD i 0, y.getD i 0, z.getD i 0⟩ := by
  unfold combine
  rw [List.getD_eq_getElem?_getD, List.getElem?_map, List.getElem?_range hi]
  rfl

theorem periodic_combine (u : V3 ℝ) {n0 n1 n2 : ℕ} (h0 : 0 < n0) (h1 : 0 < n1) (h2 : 0 < n2) {xr xi yr yi zr zi : List ℝ}
    (hx : xr.length = xi.length) (hy : yr.length = yi.length) (hz : zr.length = zi.length) (i j k : ℤ) :
    Spec.periodic (toC (combine u (n0 * n1 * n2) xr yr zr) (combine u (n0 * n1 * n2) xi yi zi)) n0 n1 n2 i j k =
      u.x * Spec.periodic (toC xr xi) n0 n1 n2 i j k + u.y * Spec.periodic (toC yr yi) n0 n1 n2 i j k +
        u.z * Spec.periodic (toC zr zi) n0 n1 n2 i j k := by
  unfold Spec.periodic
  have hlt : ((i % n0).toNat * n1 + (j % n1).toNat) * n2 + (k % n2).toNat < n0 * n1 * n2 := by
    have a := Int.emod_lt_of_pos i (by exact_mod_cast h0 : (0 : ℤ) < n0)
    have b := Int.emod_lt_of_pos j (by exact_mod_cast h1 : (0 : ℤ) < n1)
    have c := Int.emod_lt_of_pos k (by exact_mod_cast h2 : (0 : ℤ) < n2)
    exact ijk_lt (P := ⟨1, 1, 1, n0, n1, n2, M3.one, none, false, false⟩) (i := (i % n0).toNat) (j := (j % n1).toNat)
      (k := (k % n2).toNat) (by show _ < n0; omega) (by show _ < n1; omega) (by show _ < n2; omega)
  rw [toC_getD (by simp [combine]), toC_getD hx, toC_getD hy, toC_getD hz, combine_getD u hlt, combine_getD u hlt]
  apply Complex.ext <;> simp [V3.dot]

theorem bloch_combine (u : V3 ℝ) {n0 n1 n2 : ℕ} (h0 : 0 < n0) (h1 : 0 < n1) (h2 : 0 < n2) {xr xi yr yi zr zi : List ℝ}
    (hx : xr.length = xi.length) (hy : yr.length = yi.length) (hz : zr.length = zi.length) (q : V3 ℝ) :
    Spec.bloch (toC (combine u (n0 * n1 * n2) xr yr zr) (combine u (n0 * n1 * n2) xi yi zi)) n0 n1 n2 q =
      fun i j k => u.x * Spec.bloch (toC xr xi) n0 n1 n2 q i j k + u.y * Spec.bloch (toC yr yi) n0 n1 n2 q i j k +
        u.z * Spec.bloch (toC zr zi) n0 n1 n2 q i j k := by
  funext i j k
  unfold Spec.bloch
  rw [periodic_combine u h0 h1 h2 hx hy hz]
  ring

theorem cplxAt_combine {o : Opts} {f : H5} {R : M3 ℝ} (u : V3 ℝ) {a b : Fin 3 → DSet} {dims : List ℕ}
    (ha : ∀ c, Sound o (a c) ∧ (a c).dims = dims) (hb : ∀ c, Sound o (b c) ∧ (b c).dims = dims) (i j k : ℕ) :
    cplxAt o f R ⟨dims, combine u ((sizes dims).1 * (sizes dims).2.1 * (sizes dims).2.2) (a 0).data (a 1).data (a 2).data⟩
        ⟨dims, combine u ((sizes dims).1 * (sizes dims).2.1 * (sizes dims).2.2) (b 0).data (b 1).data (b 2).data⟩ i j k =
      u.x * cplxAt o f R (a 0) (b 0) i j k + u.y * cplxAt o f R (a 1) (b 1) i j k + u.z * cplxAt o f R (a 2) (b 2) i j k := by
  have hlen : ∀ c, (a c).data.length = (b c).data.length := fun c => by
    rw [(ha c).1.full, (hb c).1.full, (ha c).2, (hb c).2]
  obtain ⟨-, h0, h1, h2⟩ := sound_len (ha 0).1
  rw [(ha 0).2] at h0 h1 h2
  unfold cplxAt
  simp only [(ha 0).2, (ha 1).2, (ha 2).2]
  have := bloch_combine u h0 h1 h2 (hlen 0) (hlen 1) (hlen 2) (wave f)
  unfold toC at this
  rw [this, sample_lin]
  ring

theorem dims_ext {d e : List ℕ} (hd : d.length ≤ 3) (hl : d.length = e.length) (hs : sizes d = sizes e) : d = e := by
  unfold sizes at hs
  simp only [Prod.mk.injEq] at hs
  obtain ⟨h0, h1, h2⟩ := hs
  apply List.ext_getElem hl
  intro i hi hi'
  have hi3 : i < 3 := by omega
  interval_cases i
  · simpa [List.getD_eq_getElem?_getD, hi, hi'] using h0
  · simpa [List.getD_eq_getElem?_getD, hi, hi'] using h1
  · simpa [List.getD_eq_getElem?_getD, hi, hi'] using h2

theorem sixStep_none (f : H5) (l : List (List Char)) : l.foldlM (sixStep f) none = some none := by
  induction l with
  | nil => rfl
  | cons t l ih => rw [List.foldlM_cons]; exact ih

theorem six_fold {f : H5} {dims : List ℕ} (hd : dims.length ≤ 3) (ts : List (List Char))
    (hf : ∀ t ∈ ts, ∀ a, f t = some a → a.dims.length ≤ 3) (l : List (List ℝ)) (hl : l ≠ []) :
    ((∃ t ∈ ts, ∀ a, f t = some a → a.dims ≠ dims) ∧ ts.foldlM (sixStep f) (some (dims.length, sizes dims, l)) = some none) ∨
      ∃ as : List DSet, ts.map f = as.map some ∧ (∀ a ∈ as, a.dims = dims) ∧
        ts.foldlM (sixStep f) (some (dims.length, sizes dims, l)) = some (some (dims.length, sizes dims, l ++ as.map DSet.data)) := by
  induction ts generalizing l with
  | nil => right; exact ⟨[], rfl, by simp, by simp [List.foldlM_nil]⟩
  | cons t ts ih =>
    rw [List.foldlM_cons]
    cases e : f t with
    | none =>
      left
      refine ⟨⟨t, by simp, by simp [e]⟩, ?_⟩
      have : sixStep f (some (dims.length, sizes dims, l)) t = some none := by simp [sixStep, readData, e]
      rw [this]
      exact sixStep_none f ts
    | some a =>
      have ha := hf t (by simp) a e
      have hr : readData f t = some (some (a.dims.length, sizes a.dims, a.data)) := by
        unfold readData; rw [e]; simp only [if_pos ha]; rfl
      by_cases h : a.dims = dims
      · have : sixStep f (some (dims.length, sizes dims, l)) t = some (some (dims.length, sizes dims, l ++ [a.data])) := by
          simp [sixStep, hr, hl, h]
        rw [this]
        rcases ih (fun t ht => hf t (by simp [ht])) (l ++ [a.data]) (by simp) with ⟨⟨t', ht', h1⟩, h2⟩ | ⟨as, h1, h2, h3⟩
        · left; exact ⟨⟨t', by simp [ht'], h1⟩, h2⟩
        · right
          refine ⟨a :: as, by simp [e, h1], by simpa [h] using h2, ?_⟩
          refine h3.trans ?_
          simp
      · left
        refine ⟨⟨t, by simp, by rw [e]; rintro _ ⟨⟩; exact h⟩, ?_⟩
        have : sixStep f (some (dims.length, sizes dims, l)) t = some none := by
          have hne : ¬ (dims.length = a.dims.length ∧ sizes dims = sizes a.dims) := fun hh =>
            h (dims_ext hd hh.1 hh.2).symm
          simp only [sixStep, hr, hl, if_false, if_neg hne, Option.map_some]
        rw [this]
        exact sixStep_none f ts

theorem readSix_spec {f : H5} (hf : ∀ t ∈ reads .vec, ∀ a, f t = some a → a.dims.length ≤ 3) :
    (readSix f = some none ∧ ¬ HasVec f) ∨ ∃ (a b : Fin 3 → DSet) (dims : List ℕ),
      (∀ c, f [letter c, '.', 'r'] = some (a c) ∧ (a c).dims = dims) ∧
      (∀ c, f [letter c, '.', 'i'] = some (b c) ∧ (b c).dims = dims) ∧
      readSix f = some (some (dims.length, sizes dims,
        [(a 0).data, (b 0).data, (a 1).data, (b 1).data, (a 2).data, (b 2).data])) := by
  unfold readSix vecNames
  rw [List.foldlM_cons]
  cases e : f ['x', '.', 'r'] with
  | none =>
    left
    have : sixStep f (some (3, (1, 1, 1), [])) (compName 'x' 'r') = some none := by
      simp [sixStep, readData, compName, e]
    refine ⟨by rw [this]; exact sixStep_none f _, ?_⟩
    rintro ⟨dims, h⟩
    obtain ⟨a, ha, -⟩ := h 0 'r' (by simp)
    have := ha.symm.trans e
    simp at this
  | some a =>
    have ha := hf _ (by simp [reads]) a e
    have : sixStep f (some (3, (1, 1, 1), [])) (compName 'x' 'r') = some (some (a.dims.length, sizes a.dims, [a.data])) := by
      simp only [sixStep, readData, compName, e, if_pos ha, Option.map_some, if_true]; rfl
    rw [this]
    rcases six_fold ha [compName 'x' 'i', compName 'y' 'r', compName 'y' 'i', compName 'z' 'r', compName 'z' 'i']
        (fun t ht => hf t (by simp [reads]; simp [compName] at ht; tauto)) [a.data] (by simp) with
      ⟨⟨t, ht, h1⟩, h2⟩ | ⟨as, h1, h2, h3⟩
    · left
      refine ⟨h2, ?_⟩
      rintro ⟨dims, h⟩
      have hd : a.dims = dims := by
        obtain ⟨a', ha', hd⟩ := h 0 'r' (by simp)
        rw [← hd, Option.some.inj (e.symm.trans ha')]
      have : ∃ c : Fin 3, ∃ p ∈ ['r', 'i'], t = [letter c, '.', p] := by
        simp only [List.mem_cons, List.not_mem_nil, or_false] at ht
        rcases ht with rfl | rfl | rfl | rfl | rfl
        · exact ⟨0, 'i', by simp, rfl⟩
        · exact ⟨1, 'r', by simp, rfl⟩
        · exact ⟨1, 'i', by simp, rfl⟩
        · exact ⟨2, 'r', by simp, rfl⟩
        · exact ⟨2, 'i', by simp, rfl⟩
      obtain ⟨c, p, hp, rfl⟩ := this
      obtain ⟨b, hb, hbd⟩ := h c p hp
      exact h1 b hb (hbd.trans hd.symm)
    · right
      simp only [List.map_cons, List.map_nil, compName] at h1
      rcases as with _ | ⟨a1, _ | ⟨a2, _ | ⟨a3, _ | ⟨a4, _ | ⟨a5, _ | ⟨a6, as⟩⟩⟩⟩⟩⟩ <;> simp at h1
      obtain ⟨g1, g2, g3, g4, g5⟩ := h1
      refine ⟨![a, a2, a4], ![a1, a3, a5], a.dims, ?_, ?_, h3⟩
      · intro c; fin_cases c
        · exact ⟨e, rfl⟩
        · exact ⟨g2, h2 a2 (by simp)⟩
        · exact ⟨g4, h2 a4 (by simp)⟩
      · intro c; fin_cases c
        · exact ⟨g1, h2 a1 (by simp)⟩
        · exact ⟨g3, h2 a3 (by simp)⟩
        · exact ⟨g5, h2 a5 (by simp)⟩

end Mpb.MpbData

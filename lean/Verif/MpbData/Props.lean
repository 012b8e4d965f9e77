import Verif.MpbData.Lemmas

/-!
# Properties of `mpb-data`: C36 (interpolation), C37 (Bloch phases), C38 (rectangular cells), C39 (arguments)
-/

namespace Mpb.MpbData
open Spec

/-! ## Specification -/

namespace Spec

/-- The periodic extension of the samples of one unit cell (`n0 × n1 × n2` values in row-major order) to all grid
points. -/
def periodic {α : Type} [Zero α] (d : List α) (n0 n1 n2 : ℕ) (i j k : ℤ) : α :=
  d.getD (((i % n0).toNat * n1 + (j % n1).toNat) * n2 + (k % n2).toNat) 0

/-- The Bloch extension: the value `c` cells away from the stored one is multiplied by `exp(2πi k·c)`. -/
noncomputable def bloch (d : List ℂ) (n0 n1 n2 : ℕ) (k : V3 ℝ) (i j l : ℤ) : ℂ :=
  periodic d n0 n1 n2 i j l *
    Complex.exp (2 * Real.pi * Complex.I * (k.x * (i / (n0 : ℤ) : ℤ) + k.y * (j / (n1 : ℤ) : ℤ) + k.z * (l / (n2 : ℤ) : ℤ)))

/-- The position, in lattice coordinates of the input cell, of the output grid point `(i,j,k)`: the middles of the
two cells coincide and `map` takes output to input lattice coordinates. -/
noncomputable def position (map : M3 ℝ) (m0 m1 m2 i j k : ℕ) : V3 ℝ :=
  ⟨1 / 2, 1 / 2, 1 / 2⟩ + map.mulVec ⟨(i : ℝ) / m0 - 1 / 2, (j : ℝ) / m1 - 1 / 2, (k : ℝ) / m2 - 1 / 2⟩

/-- The requested kind of interpolation of `g` at the position `p` of the cell with `n0 × n1 × n2` grid points. -/
noncomputable def sample {E : Type} [AddCommGroup E] [Module ℝ E] (nearest : Bool) (n0 n1 n2 : ℕ) (g : ℤ → ℤ → ℤ → E)
    (p : V3 ℝ) : E :=
  if nearest then trinear g (p.x * n0) (p.y * n1) (p.z * n2) else trilin g (p.x * n0) (p.y * n1) (p.z * n2)

end Spec

/-- The place of the output point `(i,j,k)` in the output array. -/
def outIndex (P : Params) (i j k : ℕ) : ℕ := if P.transpose then (j * P.m0 + i) * P.m2 + k else (i * P.m1 + j) * P.m2 + k

/-- Both grids have at least one point in each direction. -/
structure Params.Pos (P : Params) : Prop where
  n0 : 0 < P.n0
  n1 : 0 < P.n1
  n2 : 0 < P.n2
  m0 : 0 < P.m0
  m1 : 0 < P.m1
  m2 : 0 < P.m2

/-- The wave vector in effect: zero if the file has none. -/
noncomputable def Params.k (P : Params) : V3 ℝ := P.kvector.getD ⟨0, 0, 0⟩

variable {P : Params}

theorem pos_eq (hP : P.Pos) (i j k : ℕ) : P.pos (i, j, k) = Spec.position P.map P.m0 P.m1 P.m2 i j k := by
  have h0 : (P.m0 : ℝ) ≠ 0 := by exact_mod_cast hP.m0.ne'
  have h1 : (P.m1 : ℝ) ≠ 0 := by exact_mod_cast hP.m1.ne'
  have h2 : (P.m2 : ℝ) ≠ 0 := by exact_mod_cast hP.m2.ne'
  unfold Params.pos Spec.position Params.shift Params.step M3.mulVec
  ext <;> simp only [V3.smul_x, V3.smul_y, V3.smul_z, V3.add_x, V3.add_y, V3.add_z] <;> field_simp <;> ring

theorem ijk_lt {i j k : ℕ} (hi : i < P.m0) (hj : j < P.m1) (hk : k < P.m2) : P.ijk (i, j, k) < P.m0 * P.m1 * P.m2 := by
  unfold Params.ijk
  split_ifs
  · rw [mul_comm P.m0]; exact rowMajor_lt (rowMajor_lt hj hi) hk
  · exact rowMajor_lt (rowMajor_lt hi hj) hk

theorem ijk_inj {t t' : ℕ × ℕ × ℕ} (ht : t ∈ loop3 P.m0 P.m1 P.m2) (ht' : t' ∈ loop3 P.m0 P.m1 P.m2)
    (h : P.ijk t = P.ijk t') : t = t' := by
  obtain ⟨i, j, k⟩ := t
  obtain ⟨i', j', k'⟩ := t'
  obtain ⟨a, b, c⟩ := mem_loop3.1 ht
  obtain ⟨a', b', c'⟩ := mem_loop3.1 ht'
  unfold Params.ijk at h
  dsimp only at *
  split_ifs at h
  · obtain ⟨h1, h2⟩ := rowMajor_inj c c' h
    obtain ⟨h3, h4⟩ := rowMajor_inj a a' h1
    subst h2 h3 h4; rfl
  · obtain ⟨h1, h2⟩ := rowMajor_inj c c' h
    obtain ⟨h3, h4⟩ := rowMajor_inj b b' h1
    subst h2 h3 h4; rfl

/-- All eight reads are inside the array and give the periodic extension. -/
theorem rd_corner {α : Type} [Zero α] (hP : P.Pos) {din : List α} (hd : din.length = P.n0 * P.n1 * P.n2) (p : V3 ℝ)
    (e : Bool × Bool × Bool) :
    rd din (P.inIndex (axis P.nearest P.n0 p.x) (axis P.nearest P.n1 p.y) (axis P.nearest P.n2 p.z) e) =
      some (Spec.periodic din P.n0 P.n1 P.n2 (cnr ⌊p.x * P.n0⌋ e.1) (cnr ⌊p.y * P.n1⌋ e.2.1) (cnr ⌊p.z * P.n2⌋ e.2.2)) := by
  unfold Params.inIndex
  rw [axis_idx hP.n0, axis_idx hP.n1, axis_idx hP.n2]
  obtain ⟨v, h1, h2⟩ := rd_in hd hP.n0 hP.n1 hP.n2 (cnr ⌊p.x * P.n0⌋ e.1) (cnr ⌊p.y * P.n1⌋ e.2.1)
    (cnr ⌊p.z * P.n2⌋ e.2.2)
  rw [h1]
  unfold Spec.periodic
  rw [List.getD_eq_getElem?_getD, h2]
  rfl

theorem pointR_eq (hP : P.Pos) {din : List ℝ} (hd : din.length = P.n0 * P.n1 * P.n2) (p : V3 ℝ) :
    P.pointR din p = some (Spec.sample P.nearest P.n0 P.n1 P.n2 (Spec.periodic din P.n0 P.n1 P.n2) p) := by
  unfold Params.pointR
  simp only [corners, List.foldlM_cons, List.foldlM_nil, rd_corner hP hd, Option.map_some, Option.bind_eq_bind,
    Option.bind_some, Option.pure_def]
  congr 1
  unfold Spec.sample
  simp only [Axis.wt, axis_dx hP.n0, axis_dx hP.n1, axis_dx hP.n2]
  cases hn : P.nearest
  · simp only [Bool.false_eq_true, if_false, if_true, trilin_eq, cnr, smul_eq_mul]
    ring
  · simp only [Bool.false_eq_true, if_false, if_true, trinear_eq, cnr, smul_eq_mul]
    ring

theorem s_phase (k : V3 ℝ) (hk : P.k = k) (a b c : ℤ) :
    Complex.exp (((a * P.s.x + b * P.s.y + c * P.s.z : ℝ) : ℂ) * Complex.I) =
      Complex.exp (2 * Real.pi * Complex.I * (k.x * (a : ℤ) + k.y * (b : ℤ) + k.z * (c : ℤ))) := by
  congr 1
  unfold Params.k at hk
  unfold Params.s
  cases h : P.kvector with
  | none =>
    simp only [h, Option.getD_none] at hk
    subst hk
    simp
  | some v =>
    simp only [h, Option.getD_some] at hk
    subst hk
    push_cast
    ring

theorem fold_corners (hP : P.Pos) {din : List ℂ} (hd : din.length = P.n0 * P.n1 * P.n2) (p : V3 ℝ) :
    ∀ (l : List (Bool × Bool × Bool)) (sum : ℂ) (c : Cache), c.Ok → ∃ c' : Cache, c'.Ok ∧
    l.foldlM (fun st e =>
      (rd din (P.inIndex (axis P.nearest P.n0 p.x) (axis P.nearest P.n1 p.y) (axis P.nearest P.n2 p.z) e)).map fun d =>
        addTimesPhase st.2 st.1 d ((axis P.nearest P.n0 p.x).cell e.1) ((axis P.nearest P.n1 p.y).cell e.2.1)
          ((axis P.nearest P.n2 p.z).cell e.2.2) P.s
          ((axis P.nearest P.n0 p.x).wt e.1 * (axis P.nearest P.n1 p.y).wt e.2.1 * (axis P.nearest P.n2 p.z).wt e.2.2))
      (sum, c) =
    some (sum + (l.map fun e =>
      (((axis P.nearest P.n0 p.x).wt e.1 * (axis P.nearest P.n1 p.y).wt e.2.1 * (axis P.nearest P.n2 p.z).wt e.2.2 : ℝ) : ℂ) *
      Spec.bloch din P.n0 P.n1 P.n2 P.k (cnr ⌊p.x * P.n0⌋ e.1) (cnr ⌊p.y * P.n1⌋ e.2.1) (cnr ⌊p.z * P.n2⌋ e.2.2)).sum, c') := by
  intro l
  induction l with
  | nil => intro sum c hc; exact ⟨c, hc, by simp⟩
  | cons e l ih =>
    intro sum c hc
    rw [List.foldlM_cons, rd_corner hP hd]
    simp only [Option.map_some, Option.bind_eq_bind, Option.bind_some]
    have key := addTimesPhase_eq hc sum
      (Spec.periodic din P.n0 P.n1 P.n2 (cnr ⌊p.x * P.n0⌋ e.1) (cnr ⌊p.y * P.n1⌋ e.2.1) (cnr ⌊p.z * P.n2⌋ e.2.2))
      ((axis P.nearest P.n0 p.x).cell e.1) ((axis P.nearest P.n1 p.y).cell e.2.1)
      ((axis P.nearest P.n2 p.z).cell e.2.2) P.s
      ((axis P.nearest P.n0 p.x).wt e.1 * (axis P.nearest P.n1 p.y).wt e.2.1 * (axis P.nearest P.n2 p.z).wt e.2.2)
    generalize addTimesPhase c sum _ _ _ _ _ _ = r at key ⊢
    obtain ⟨h1, h2⟩ := key
    obtain ⟨c', hc', e'⟩ := ih r.1 r.2 h2
    refine ⟨c', hc', e'.trans ?_⟩
    rw [h1, s_phase P.k rfl, axis_cell hP.n0, axis_cell hP.n1, axis_cell hP.n2, List.map_cons, List.sum_cons, Spec.bloch,
      add_assoc]

theorem pointC_eq (hP : P.Pos) {din : List ℂ} (hd : din.length = P.n0 * P.n1 * P.n2) {c : Cache} (hc : c.Ok) (p : V3 ℝ) :
    ∃ c' : Cache, c'.Ok ∧ P.pointC din c p =
      some (Spec.sample P.nearest P.n0 P.n1 P.n2 (Spec.bloch din P.n0 P.n1 P.n2 P.k) p, c') := by
  obtain ⟨c', hc', e⟩ := fold_corners hP hd p corners 0 c hc
  refine ⟨c', hc', e.trans ?_⟩
  congr 2
  unfold Spec.sample
  simp only [corners, List.map_cons, List.map_nil, List.sum_cons, List.sum_nil, Axis.wt, axis_dx hP.n0, axis_dx hP.n1,
    axis_dx hP.n2]
  cases hn : P.nearest
  · simp only [Bool.false_eq_true, if_false, if_true, trilin_eq, cnr, Complex.real_smul]
    ring
  · simp only [Bool.false_eq_true, if_false, if_true, trinear_eq, cnr, Complex.real_smul]
    ring

/-! ## C36, C37 -/

/-- **C36, real fields.**  For every pair of grids, coordinate map, options and input data, every read and write is inside
its array, and the value written for each output point is the (multi-)linear interpolation — or, with `-p`, the nearest
sample — of the periodic extension of the input at that point's position.  Nothing else is written. -/
theorem C36_real (hP : P.Pos) (din : List ℝ) (hd : din.length = P.n0 * P.n1 * P.n2) (mem : ℕ → ℝ) :
    ∃ out, mapDataR P din mem = some out ∧
      (∀ i j k, i < P.m0 → j < P.m1 → k < P.m2 → out (outIndex P i j k) =
        Spec.sample P.nearest P.n0 P.n1 P.n2 (Spec.periodic din P.n0 P.n1 P.n2)
          (Spec.position P.map P.m0 P.m1 P.m2 i j k)) ∧
      (∀ a, P.m0 * P.m1 * P.m2 ≤ a → out a = mem a) := by
  set val : ℕ × ℕ × ℕ → ℝ := fun t => Spec.sample P.nearest P.n0 P.n1 P.n2 (Spec.periodic din P.n0 P.n1 P.n2)
    (Spec.position P.map P.m0 P.m1 P.m2 t.1 t.2.1 t.2.2) with hval
  have h := foldlM_writes' P.ijk val (P.stepR din) (loop3 P.m0 P.m1 P.m2) mem (by
    rintro ⟨i, j, k⟩ ht m
    obtain ⟨hi, hj, hk⟩ := mem_loop3.1 ht
    unfold Params.stepR
    rw [pointR_eq hP hd, pos_eq hP]
    simp only [Option.bind_some, Params.wr, if_pos (ijk_lt hi hj hk), hval])
  refine ⟨_, h, ?_, ?_⟩
  · intro i j k hi hj hk
    have ht : (i, j, k) ∈ loop3 P.m0 P.m1 P.m2 := mem_loop3.2 ⟨hi, hj, hk⟩
    exact writes_map_apply (i := (i, j, k)) ht (fun t ht' e => by rw [ijk_inj ht' ht e])
  · intro a ha
    apply writes_map_other
    rintro ⟨i, j, k⟩ ht
    obtain ⟨hi, hj, hk⟩ := mem_loop3.1 ht
    exact (lt_of_lt_of_le (ijk_lt (P := P) hi hj hk) ha).ne

/-- **C37/C36, complex fields.**  The same for complex fields, with the Bloch extension of the input: the value `c` cells
away carries the phase `exp(2πi k·c)`.  It holds for every state of the phase cache that earlier work may have left, and
leaves the cache in such a state again. -/
theorem C37_complex (hP : P.Pos) (din : List ℂ) (hd : din.length = P.n0 * P.n1 * P.n2) (mem : ℕ → ℂ) (c : Cache)
    (hc : c.Ok) :
    ∃ out c', mapDataC P din mem c = some (out, c') ∧ c'.Ok ∧
      (∀ i j k, i < P.m0 → j < P.m1 → k < P.m2 → out (outIndex P i j k) =
        Spec.sample P.nearest P.n0 P.n1 P.n2 (Spec.bloch din P.n0 P.n1 P.n2 P.k)
          (Spec.position P.map P.m0 P.m1 P.m2 i j k)) ∧
      (∀ a, P.m0 * P.m1 * P.m2 ≤ a → out a = mem a) := by
  set val : ℕ × ℕ × ℕ → ℂ := fun t => Spec.sample P.nearest P.n0 P.n1 P.n2 (Spec.bloch din P.n0 P.n1 P.n2 P.k)
    (Spec.position P.map P.m0 P.m1 P.m2 t.1 t.2.1 t.2.2) with hval
  obtain ⟨c', hc', h⟩ := foldlM_writes Cache.Ok P.ijk val (P.stepC din) (loop3 P.m0 P.m1 P.m2) mem c hc (by
    rintro ⟨i, j, k⟩ ht m b hb
    obtain ⟨hi, hj, hk⟩ := mem_loop3.1 ht
    obtain ⟨b', hb', e⟩ := pointC_eq hP hd hb (P.pos (i, j, k))
    refine ⟨b', hb', ?_⟩
    unfold Params.stepC
    rw [e, pos_eq hP]
    simp only [Option.bind_some, Params.wr, if_pos (ijk_lt hi hj hk), hval, Option.map_some])
  refine ⟨_, c', h, hc', ?_, ?_⟩
  · intro i j k hi hj hk
    have ht : (i, j, k) ∈ loop3 P.m0 P.m1 P.m2 := mem_loop3.2 ⟨hi, hj, hk⟩
    exact writes_map_apply (i := (i, j, k)) ht (fun t ht' e => by rw [ijk_inj ht' ht e])
  · intro a ha
    apply writes_map_other
    rintro ⟨i, j, k⟩ ht
    obtain ⟨hi, hj, hk⟩ := mem_loop3.1 ht
    exact (lt_of_lt_of_le (ijk_lt (P := P) hi hj hk) ha).ne

theorem periodic_mem {α : Type} [Zero α] {S : Set α} {d : List α} {n0 n1 n2 : ℕ} (hd : d.length = n0 * n1 * n2)
    (h0 : 0 < n0) (h1 : 0 < n1) (h2 : 0 < n2) (hS : ∀ v ∈ d, v ∈ S) (i j k : ℤ) : Spec.periodic d n0 n1 n2 i j k ∈ S := by
  obtain ⟨v, -, h⟩ := rd_in hd h0 h1 h2 i j k
  unfold Spec.periodic
  rw [List.getD_eq_getElem?_getD, h]
  exact hS _ (List.mem_of_getElem? h)

/-- **C36, bounds.**  Every output value lies between the smallest and the largest input value. -/
theorem C36_convex (hP : P.Pos) (din : List ℝ) (hd : din.length = P.n0 * P.n1 * P.n2) (mem : ℕ → ℝ) (lo hi : ℝ)
    (hb : ∀ v ∈ din, lo ≤ v ∧ v ≤ hi) :
    ∃ out, mapDataR P din mem = some out ∧ ∀ i j k, i < P.m0 → j < P.m1 → k < P.m2 →
      lo ≤ out (outIndex P i j k) ∧ out (outIndex P i j k) ≤ hi := by
  obtain ⟨out, h, hv, -⟩ := C36_real hP din hd mem
  refine ⟨out, h, fun i j k h0 h1 h2 => ?_⟩
  rw [hv i j k h0 h1 h2]
  have hm := periodic_mem (S := Set.Icc lo hi) hd hP.n0 hP.n1 hP.n2 hb
  unfold Spec.sample
  split_ifs
  · exact trinear_mem hm _ _ _
  · exact trilin_mem (convex_Icc lo hi) hm _ _ _

/-- **C36, exactness.**  At an output point whose position is the input grid point `(a,b,c)` (of any unit cell), the
output is exactly the sample there. -/
theorem C36_exact (hP : P.Pos) (din : List ℝ) (hd : din.length = P.n0 * P.n1 * P.n2) (mem : ℕ → ℝ) :
    ∃ out, mapDataR P din mem = some out ∧ ∀ i j k, i < P.m0 → j < P.m1 → k < P.m2 → ∀ a b c : ℤ,
      Spec.position P.map P.m0 P.m1 P.m2 i j k = ⟨a / P.n0, b / P.n1, c / P.n2⟩ →
      out (outIndex P i j k) = Spec.periodic din P.n0 P.n1 P.n2 a b c := by
  obtain ⟨out, h, hv, -⟩ := C36_real hP din hd mem
  refine ⟨out, h, fun i j k h0 h1 h2 a b c e => ?_⟩
  rw [hv i j k h0 h1 h2, e]
  have n0 : (P.n0 : ℝ) ≠ 0 := by exact_mod_cast hP.n0.ne'
  have n1 : (P.n1 : ℝ) ≠ 0 := by exact_mod_cast hP.n1.ne'
  have n2 : (P.n2 : ℝ) ≠ 0 := by exact_mod_cast hP.n2.ne'
  unfold Spec.sample
  simp only [div_mul_cancel₀ _ n0, div_mul_cancel₀ _ n1, div_mul_cancel₀ _ n2]
  rw [trinear_int, trilin_int, ite_self]

/-- **C36, identity.**  With the same lattice and the same grid, and no transposition, the output is the input. -/
theorem C36_identity (hP : P.Pos) (din : List ℝ) (hd : din.length = P.n0 * P.n1 * P.n2) (mem : ℕ → ℝ)
    (hmap : P.map = M3.one) (h0 : P.m0 = P.n0) (h1 : P.m1 = P.n1) (h2 : P.m2 = P.n2) (ht : P.transpose = false) :
    ∃ out, mapDataR P din mem = some out ∧ ∀ a (ha : a < din.length), out a = din[a] := by
  obtain ⟨out, h, hv⟩ := C36_exact hP din hd mem
  refine ⟨out, h, fun a ha => ?_⟩
  have hlt : a < P.n0 * P.n1 * P.n2 := hd ▸ ha
  obtain ⟨i, j, k, hi, hj, hk, rfl⟩ : ∃ i j k, i < P.n0 ∧ j < P.n1 ∧ k < P.n2 ∧ a = (i * P.n1 + j) * P.n2 + k := by
    have := loop3_map_addr P.n0 P.n1 P.n2
    have hmem : a ∈ List.range (P.n0 * P.n1 * P.n2) := List.mem_range.2 hlt
    rw [← this] at hmem
    obtain ⟨⟨i, j, k⟩, hm, rfl⟩ := List.mem_map.1 hmem
    obtain ⟨x, y, z⟩ := mem_loop3.1 hm
    exact ⟨i, j, k, x, y, z, rfl⟩
  have hpos : Spec.position P.map P.m0 P.m1 P.m2 i j k = ⟨(i : ℤ) / P.n0, (j : ℤ) / P.n1, (k : ℤ) / P.n2⟩ := by
    unfold Spec.position M3.mulVec
    rw [hmap, h0, h1, h2]
    ext <;> simp [M3.one]
  have e := hv i j k (h0 ▸ hi) (h1 ▸ hj) (h2 ▸ hk) i j k (by exact_mod_cast hpos)
  have hidx : outIndex P i j k = (i * P.n1 + j) * P.n2 + k := by simp [outIndex, ht, h1, h2]
  rw [hidx] at e
  rw [e]
  unfold Spec.periodic
  have ei : ((i : ℤ) % P.n0).toNat = i := by rw [Int.emod_eq_of_lt (by omega) (by omega)]; simp
  have ej : ((j : ℤ) % P.n1).toNat = j := by rw [Int.emod_eq_of_lt (by omega) (by omega)]; simp
  have ek : ((k : ℤ) % P.n2).toNat = k := by rw [Int.emod_eq_of_lt (by omega) (by omega)]; simp
  rw [ei, ej, ek, List.getD_eq_getElem?_getD, List.getElem?_eq_getElem ha]
  rfl

theorem bloch_shift (d : List ℂ) {n0 n1 n2 : ℕ} (h0 : 0 < n0) (h1 : 0 < n1) (h2 : 0 < n2) (k : V3 ℝ) (i j l a b c : ℤ) :
    Spec.bloch d n0 n1 n2 k (i + a * n0) (j + b * n1) (l + c * n2) =
      Complex.exp (2 * Real.pi * Complex.I * (k.x * a + k.y * b + k.z * c)) * Spec.bloch d n0 n1 n2 k i j l := by
  unfold Spec.bloch Spec.periodic
  rw [Int.add_mul_emod_self_right, Int.add_mul_emod_self_right, Int.add_mul_emod_self_right,
    Int.add_mul_ediv_right _ _ (by omega), Int.add_mul_ediv_right _ _ (by omega), Int.add_mul_ediv_right _ _ (by omega)]
  rw [mul_left_comm, ← Complex.exp_add]
  congr 2
  push_cast
  ring

theorem trilin_smul (z : ℂ) (g : ℤ → ℤ → ℤ → ℂ) (u v w : ℝ) :
    trilin (fun i j k => z * g i j k) u v w = z * trilin g u v w := by
  simp only [trilin_eq, Complex.real_smul]
  ring

theorem trinear_smul (z : ℂ) (g : ℤ → ℤ → ℤ → ℂ) (u v w : ℝ) :
    trinear (fun i j k => z * g i j k) u v w = z * trinear g u v w := by
  unfold trinear near
  split_ifs <;> rfl

/-- The Bloch extension of the data, sampled at any position, picks up the phase of the cells crossed. -/
theorem sample_bloch_shift (near : Bool) (d : List ℂ) {n0 n1 n2 : ℕ} (h0 : 0 < n0) (h1 : 0 < n1) (h2 : 0 < n2) (k : V3 ℝ)
    (p : V3 ℝ) (a b c : ℤ) :
    Spec.sample near n0 n1 n2 (Spec.bloch d n0 n1 n2 k) (p + ⟨a, b, c⟩) =
      Complex.exp (2 * Real.pi * Complex.I * (k.x * a + k.y * b + k.z * c)) *
        Spec.sample near n0 n1 n2 (Spec.bloch d n0 n1 n2 k) p := by
  unfold Spec.sample
  have e0 : (p.x + a) * n0 = p.x * n0 + ((a * n0 : ℤ) : ℝ) := by push_cast; ring
  have e1 : (p.y + b) * n1 = p.y * n1 + ((b * n1 : ℤ) : ℝ) := by push_cast; ring
  have e2 : (p.z + c) * n2 = p.z * n2 + ((c * n2 : ℤ) : ℝ) := by push_cast; ring
  simp only [V3.add_x, V3.add_y, V3.add_z, e0, e1, e2, trinear_add_int, trilin_add_int, bloch_shift d h0 h1 h2,
    trilin_smul, trinear_smul]
  split_ifs <;> rfl

/-- **C37, periods.**  If the position of one output point is that of another plus a lattice vector `(a,b,c)`, its value is
the other's times `exp(2πi k·(a,b,c))` — in whatever order the points were visited and whatever was computed before. -/
theorem C37_periods (hP : P.Pos) (din : List ℂ) (hd : din.length = P.n0 * P.n1 * P.n2) (mem : ℕ → ℂ) (c : Cache)
    (hc : c.Ok) :
    ∃ out c', mapDataC P din mem c = some (out, c') ∧ ∀ i j k i' j' k', i < P.m0 → j < P.m1 → k < P.m2 →
      i' < P.m0 → j' < P.m1 → k' < P.m2 → ∀ x y z : ℤ,
      Spec.position P.map P.m0 P.m1 P.m2 i' j' k' = Spec.position P.map P.m0 P.m1 P.m2 i j k + ⟨x, y, z⟩ →
      out (outIndex P i' j' k') =
        Complex.exp (2 * Real.pi * Complex.I * (P.k.x * x + P.k.y * y + P.k.z * z)) * out (outIndex P i j k) := by
  obtain ⟨out, c', h, -, hv, -⟩ := C37_complex hP din hd mem c hc
  refine ⟨out, c', h, fun i j k i' j' k' a1 a2 a3 b1 b2 b3 x y z e => ?_⟩
  rw [hv i j k a1 a2 a3, hv i' j' k' b1 b2 b3, e]
  exact sample_bloch_shift _ _ hP.n0 hP.n1 hP.n2 _ _ _ _ _

/-- The state of the phase cache after a sequence of calls of the program's lifetime. -/
inductive Reached : Cache → Prop
  | start : Reached cache0
  | call {c c' : Cache} {P : Params} {din : List ℂ} {mem out : ℕ → ℂ} : Reached c → P.Pos →
      din.length = P.n0 * P.n1 * P.n2 → mapDataC P din mem c = some (out, c') → Reached c'

/-- **C37, every history.**  In every state of the phase cache reached by any sequence of data sets processed before, the
cache holds the phase factor of the phase it is labelled with; so `C37_complex` and `C37_periods` apply at every point of
the program's life and the output does not depend on what was processed before. -/
theorem C37_history {c : Cache} (h : Reached c) : c.Ok := by
  induction h with
  | start => exact ⟨by simp [cache0], by simp [cache0]⟩
  | call _ hP hd e ih =>
    obtain ⟨out', c'', e', hc'', -⟩ := C37_complex hP _ hd _ _ ih
    rw [e] at e'
    simp only [Option.some.injEq, Prod.mk.injEq] at e'
    exact e'.2 ▸ hc''

/-- Two histories give the same output. -/
theorem C37_independent (hP : P.Pos) (din : List ℂ) (hd : din.length = P.n0 * P.n1 * P.n2) (mem : ℕ → ℂ) {c d : Cache}
    (hc : Reached c) (hd' : Reached d) :
    (mapDataC P din mem c).map (fun r => (List.range (P.m0 * P.m1 * P.m2)).map r.1) =
      (mapDataC P din mem d).map (fun r => (List.range (P.m0 * P.m1 * P.m2)).map r.1) := by
  obtain ⟨o, c', e, -, hv, -⟩ := C37_complex hP din hd mem c (C37_history hc)
  obtain ⟨o', c'', e', -, hv', -⟩ := C37_complex hP din hd mem d (C37_history hd')
  rw [e, e']
  simp only [Option.map_some, Option.some.injEq]
  apply List.map_congr_left
  intro a ha
  by_cases ht : P.transpose
  · rw [mul_comm P.m0, ← loop3_map_addr] at ha
    obtain ⟨⟨j, i, k⟩, hm, rfl⟩ := List.mem_map.1 ha
    obtain ⟨x, y, z⟩ := mem_loop3.1 hm
    have := (hv i j k y x z).trans (hv' i j k y x z).symm
    simpa [outIndex, ht] using this
  · rw [← loop3_map_addr] at ha
    obtain ⟨⟨i, j, k⟩, hm, rfl⟩ := List.mem_map.1 ha
    obtain ⟨x, y, z⟩ := mem_loop3.1 hm
    have := (hv i j k x y z).trans (hv' i j k x y z).symm
    simpa [outIndex, ht] using this

/-- Non-vacuity: two periods of a field on a `2 × 1 × 1` grid. -/
noncomputable def exP : Params := ⟨2, 1, 1, 4, 1, 1, ⟨⟨2, 0, 0⟩, ⟨0, 1, 0⟩, ⟨0, 0, 1⟩⟩, some ⟨1 / 2, 0, 0⟩, false, false⟩

example : exP.Pos ∧ [(1 : ℂ), 2].length = exP.n0 * exP.n1 * exP.n2 := ⟨⟨by decide, by decide, by decide, by decide, by decide, by decide⟩, rfl⟩

/-- In this example the output points 0 and 2 are one period apart. -/
example : Spec.position exP.map exP.m0 exP.m1 exP.m2 2 0 0 =
    Spec.position exP.map exP.m0 exP.m1 exP.m2 0 0 0 + ⟨((1 : ℤ) : ℝ), ((0 : ℤ) : ℝ), ((0 : ℤ) : ℝ)⟩ := by
  ext <;> simp [Spec.position, exP, M3.mulVec] <;> norm_num

/-- … and output point 1 lies on the input grid point 0. -/
example : Spec.position exP.map exP.m0 exP.m1 exP.m2 1 0 0 =
    ⟨((0 : ℤ) : ℝ) / exP.n0, ((0 : ℤ) : ℝ) / exP.n1, ((0 : ℤ) : ℝ) / exP.n2⟩ := by
  ext <;> simp [Spec.position, exP, M3.mulVec] <;> norm_num

/-! ## C38 -/

/-- The signed volume of a lattice cell. -/
def volume (R : M3 ℝ) : ℝ := V3.dot R.c0 (V3.cross R.c1 R.c2)

/-- Pairwise orthogonal lattice vectors. -/
def Orthogonal (R : M3 ℝ) : Prop := V3.dot R.c0 R.c1 = 0 ∧ V3.dot R.c0 R.c2 = 0 ∧ V3.dot R.c1 R.c2 = 0

theorem dot_self_nonneg (v : V3 ℝ) : 0 ≤ V3.dot v v := by
  unfold V3.dot
  nlinarith [mul_self_nonneg v.x, mul_self_nonneg v.y, mul_self_nonneg v.z]

theorem dot_self_eq_zero {v : V3 ℝ} (h : V3.dot v v = 0) : v = 0 := by
  unfold V3.dot at h
  ext <;> simp <;> nlinarith [mul_self_nonneg v.x, mul_self_nonneg v.y, mul_self_nonneg v.z]

theorem norm_sq (v : V3 ℝ) : norm v * norm v = V3.dot v v := Real.mul_self_sqrt (dot_self_nonneg v)

theorem norm_ne_zero {v : V3 ℝ} (h : v ≠ 0) : norm v ≠ 0 := by
  intro e
  apply h
  apply dot_self_eq_zero
  rw [← norm_sq, e, zero_mul]

theorem norm_pos {v : V3 ℝ} (h : v ≠ 0) : 0 < norm v := lt_of_le_of_ne (Real.sqrt_nonneg _) (norm_ne_zero h).symm

theorem unit_eq {v : V3 ℝ} (h : v ≠ 0) : unit v = V3.smul (1 / norm v) v := by
  simp [unit, norm_ne_zero h]

theorem unit_dot {v : V3 ℝ} (h : v ≠ 0) : V3.dot (unit v) (unit v) = 1 := by
  rw [unit_eq h]
  have h1 := norm_sq v
  have h2 := norm_ne_zero h
  unfold V3.dot at h1 ⊢
  simp only [V3.smul_x, V3.smul_y, V3.smul_z]
  field_simp
  linarith

/-- The two vectors that remain in the plane perpendicular to the unit vector `e` are independent when
`(c1 × c2)·e ≠ 0`; in particular the first is not zero. -/
theorem proj_ne_zero {e c1 c2 : V3 ℝ} (he : V3.dot e e = 1) (hd : V3.dot (V3.cross c1 c2) e ≠ 0) :
    V3.dot (c1 - V3.smul (V3.dot e c1) e) (c1 - V3.smul (V3.dot e c1) e) ≠ 0 := by
  intro h
  have h0 := dot_self_eq_zero h
  apply hd
  have hx := congrArg V3.x h0
  have hy := congrArg V3.y h0
  have hz := congrArg V3.z h0
  simp only [V3.sub_x, V3.sub_y, V3.sub_z, V3.smul_x, V3.smul_y, V3.smul_z, V3.zero_x, V3.zero_y, V3.zero_z] at hx hy hz
  generalize V3.dot e c1 = q at hx hy hz
  have ex : c1.x = q * e.x := by linarith
  have ey : c1.y = q * e.y := by linarith
  have ez : c1.z = q * e.z := by linarith
  unfold V3.dot V3.cross
  simp only [ex, ey, ez]
  ring

/-- **C38, the rectangular cell.**  For every input lattice and every requested direction `ve` (or none), if the
direction `e` used is a unit vector that is not in the plane of `c1 - c0` and `c2 - c0`, the output lattice is orthogonal,
has exactly the input cell's (signed) volume and its first vector is parallel to `e`. -/
theorem rectify_spec (R : M3 ℝ) (ve : Option (V3 ℝ)) (he : V3.dot (rectDir R ve) (rectDir R ve) = 1)
    (hden : rectDen R (rectDir R ve) ≠ 0) :
    ∃ R', rectify R ve = some R' ∧ Orthogonal R' ∧ volume R' = volume R ∧
      R'.c0 = V3.smul (volume R / rectDen R (rectDir R ve)) (rectDir R ve) := by
  unfold rectDen at hden ⊢
  unfold rectify
  generalize rectDir R ve = e at *
  have hp := proj_ne_zero he hden
  simp only [if_neg hden, if_neg hp]
  refine ⟨_, rfl, ?_, ?_, ?_⟩
  · generalize R.c1 - R.c0 = c1 at *
    generalize R.c2 - R.c0 = c2 at *
    generalize ha : c1 - V3.smul (V3.dot e c1) e = a at *
    generalize hb : c2 - V3.smul (V3.dot e c2) e = b at *
    have hea : V3.dot e a = 0 := by
      rw [← ha]
      unfold V3.dot at he ⊢
      simp only [V3.sub_x, V3.sub_y, V3.sub_z, V3.smul_x, V3.smul_y, V3.smul_z]
      linear_combination (-(e.x * c1.x + e.y * c1.y + e.z * c1.z)) * he
    have heb : V3.dot e b = 0 := by
      rw [← hb]
      unfold V3.dot at he ⊢
      simp only [V3.sub_x, V3.sub_y, V3.sub_z, V3.smul_x, V3.smul_y, V3.smul_z]
      linear_combination (-(e.x * c2.x + e.y * c2.y + e.z * c2.z)) * he
    clear ha hb
    generalize V3.dot (V3.cross R.c0 R.c1) R.c2 / V3.dot (V3.cross c1 c2) e = q
    refine ⟨?_, ?_, ?_⟩
    · show V3.dot (V3.smul q e) a = 0
      unfold V3.dot at hea ⊢
      simp only [V3.smul_x, V3.smul_y, V3.smul_z]
      linear_combination q * hea
    · show V3.dot (V3.smul q e) (b - V3.smul (V3.dot a b / V3.dot a a) a) = 0
      generalize V3.dot a b / V3.dot a a = r
      unfold V3.dot at hea heb ⊢
      simp only [V3.smul_x, V3.smul_y, V3.smul_z, V3.sub_x, V3.sub_y, V3.sub_z]
      linear_combination q * heb - q * r * hea
    · show V3.dot a (b - V3.smul (V3.dot a b / V3.dot a a) a) = 0
      have : V3.dot a b / V3.dot a a * V3.dot a a = V3.dot a b := div_mul_cancel₀ _ hp
      generalize V3.dot a b / V3.dot a a = r at *
      unfold V3.dot at this ⊢
      simp only [V3.smul_x, V3.smul_y, V3.smul_z, V3.sub_x, V3.sub_y, V3.sub_z]
      linear_combination -this
  · show V3.dot (V3.smul _ e) (V3.cross _ (_ - V3.smul _ _)) = volume R
    have hV : V3.dot (V3.cross R.c0 R.c1) R.c2 = volume R := by
      unfold volume V3.dot V3.cross; ring
    rw [hV]
    have hq : volume R / V3.dot (V3.cross (R.c1 - R.c0) (R.c2 - R.c0)) e * V3.dot (V3.cross (R.c1 - R.c0) (R.c2 - R.c0)) e =
      volume R := div_mul_cancel₀ _ hden
    generalize volume R / V3.dot (V3.cross (R.c1 - R.c0) (R.c2 - R.c0)) e = q at *
    generalize volume R = V at *
    generalize R.c1 - R.c0 = c1 at *
    generalize R.c2 - R.c0 = c2 at *
    generalize V3.dot (c1 - V3.smul (V3.dot e c1) e) (c2 - V3.smul (V3.dot e c2) e) /
      V3.dot (c1 - V3.smul (V3.dot e c1) e) (c1 - V3.smul (V3.dot e c1) e) = r
    generalize V3.dot e c1 = s
    generalize V3.dot e c2 = t
    rw [← hq]
    unfold V3.dot V3.cross
    simp only [V3.smul_x, V3.smul_y, V3.smul_z, V3.sub_x, V3.sub_y, V3.sub_z]
    ring
  · show V3.smul _ _ = V3.smul _ _
    congr 2
    unfold volume V3.dot V3.cross; ring

/-- **C38, default direction.**  For every non-degenerate input lattice, `-r` succeeds; the output lattice is
orthogonal, has the same signed volume, and its first vector is the input's first lattice vector. -/
theorem C38_rectify (R : M3 ℝ) (hR : volume R ≠ 0) :
    ∃ R', rectify R none = some R' ∧ Orthogonal R' ∧ volume R' = volume R ∧ R'.c0 = R.c0 := by
  have h0 : R.c0 ≠ 0 := by
    intro e; apply hR; unfold volume; rw [e]; simp [V3.dot]
  have hn := norm_ne_zero h0
  have hdir : rectDir R none = V3.smul (1 / norm R.c0) R.c0 := unit_eq h0
  have hden : rectDen R (rectDir R none) = volume R / norm R.c0 := by
    rw [hdir]
    unfold rectDen volume V3.dot V3.cross
    simp only [V3.smul_x, V3.smul_y, V3.smul_z, V3.sub_x, V3.sub_y, V3.sub_z]
    field_simp
    ring
  obtain ⟨R', h, ho, hv, hc⟩ := rectify_spec R none (unit_dot h0) (by rw [hden]; exact div_ne_zero hR hn)
  refine ⟨R', h, ho, hv, ?_⟩
  rw [hc, hden, hdir]
  ext <;> simp only [V3.smul_x, V3.smul_y, V3.smul_z] <;> field_simp

/-- **C38, given direction (part).**  With `-e ve`, for every lattice and every nonzero `ve` outside the plane of
`c1 - c0` and `c2 - c0`, the output lattice is orthogonal, has the same signed volume, and its first vector is a nonzero
multiple of `ve` — a positive one exactly when `((c1-c0)×(c2-c0))·ve` has the sign of the volume.
Missing: the other directions, see `C38_direction_refuted`, `C38_plane_refuted`. -/
theorem C38_direction_partial (R : M3 ℝ) (hR : volume R ≠ 0) (ve : V3 ℝ) (hve : ve ≠ 0) (hplane : rectDen R ve ≠ 0) :
    ∃ R' q, rectify R (some ve) = some R' ∧ Orthogonal R' ∧ volume R' = volume R ∧ R'.c0 = V3.smul q ve ∧ q ≠ 0 ∧
      (0 < q ↔ 0 < rectDen R ve * volume R) := by
  have hn := norm_pos hve
  have hdir : rectDir R (some ve) = V3.smul (1 / norm ve) ve := unit_eq hve
  have hden : rectDen R (rectDir R (some ve)) = rectDen R ve / norm ve := by
    rw [hdir]
    unfold rectDen V3.dot V3.cross
    simp only [V3.smul_x, V3.smul_y, V3.smul_z]
    field_simp
  obtain ⟨R', h, ho, hv, hc⟩ := rectify_spec R (some ve) (unit_dot hve) (by rw [hden]; exact div_ne_zero hplane hn.ne')
  refine ⟨R', volume R / rectDen R ve, h, ho, hv, ?_, div_ne_zero hR hplane, ?_⟩
  · rw [hc, hden, hdir]
    have := hn.ne'
    ext <;> simp only [V3.smul_x, V3.smul_y, V3.smul_z] <;> field_simp
  · rw [div_pos_iff, mul_pos_iff]
    tauto

/-- The cubic lattice. -/
def cubic : M3 ℝ := M3.one

/-- **C38 fails for some directions: the axis comes out reversed.**  On the cubic lattice with `-e -1,0,0` the first
output vector is `(1,0,0)`: opposite to the direction asked for. -/
theorem C38_direction_refuted :
    ∃ R', rectify cubic (some ⟨-1, 0, 0⟩) = some R' ∧ V3.dot R'.c0 ⟨-1, 0, 0⟩ < 0 := by
  have hne : (⟨-1, 0, 0⟩ : V3 ℝ) ≠ 0 := by
    intro h
    have := congrArg V3.x h
    simp at this
  obtain ⟨R', q, h, -, -, hc, hq, hs⟩ := C38_direction_partial cubic (by simp [volume, cubic, M3.one, V3.dot, V3.cross])
    ⟨-1, 0, 0⟩ hne (by simp [rectDen, cubic, M3.one, V3.dot, V3.cross])
  refine ⟨R', h, ?_⟩
  rw [hc]
  have : ¬ 0 < q := by
    rw [hs]; simp [rectDen, volume, cubic, M3.one, V3.dot, V3.cross]
  have hq' : q < 0 := lt_of_le_of_ne (not_lt.1 this) hq
  simp [V3.dot]
  exact hq'

/-- **C38 fails for some directions: division by zero.**  On the cubic lattice with `-e 1,-1,0` the program divides by
zero. -/
theorem C38_plane_refuted : volume cubic ≠ 0 ∧ rectify cubic (some ⟨1, -1, 0⟩) = none := by
  refine ⟨by simp [volume, cubic, M3.one, V3.dot, V3.cross], ?_⟩
  have hne : (⟨1, -1, 0⟩ : V3 ℝ) ≠ 0 := by
    intro h
    have := congrArg V3.x h
    simp at this
  unfold rectify
  simp only [rectDir, unit_eq hne]
  rw [if_pos]
  simp [cubic, M3.one, V3.dot, V3.cross]

/-- Non-vacuity of `C38_direction_partial`: the direction `(1,1,0)` of the cubic lattice. -/
example : volume cubic ≠ 0 ∧ rectDen cubic ⟨1, 1, 0⟩ ≠ 0 := by
  constructor
  · simp [volume, cubic, M3.one, V3.dot, V3.cross]
  · simp [rectDen, cubic, M3.one, V3.dot, V3.cross]

theorem det_volume (m : M3 ℝ) : M3.det m = volume m := by
  unfold M3.det volume V3.dot V3.cross; ring

theorem inverse_mulVec {m : M3 ℝ} (h : volume m ≠ 0) (v : V3 ℝ) : m.mulVec ((inverse m).mulVec v) = v := by
  have h' : M3.det m ≠ 0 := by rwa [det_volume]
  have hq : 1 / M3.det m * M3.det m = 1 := div_mul_cancel₀ _ h'
  unfold inverse
  generalize 1 / M3.det m = q at *
  unfold M3.det at hq
  unfold M3.mulVec M3.transpose V3.cross
  ext <;> simp only [V3.smul_x, V3.smul_y, V3.smul_z]
  · linear_combination v.x * hq
  · linear_combination v.y * hq
  · linear_combination v.z * hq

/-- **C38, the map covers the output cell.**  For every non-degenerate input lattice, every output lattice and every
multiplication factors, the physical point of the output grid point `(i,j,k)` (the output lattice applied to its
coordinates, measured from the middle of the cell) is the physical point at which the input field is sampled. -/
theorem C38_covers (Rin Rout : M3 ℝ) (hR : volume Rin ≠ 0) (m0 m1 m2 i j k : ℕ) :
    Rin.mulVec (Spec.position (coordMap Rin Rout) m0 m1 m2 i j k - ⟨1 / 2, 1 / 2, 1 / 2⟩) =
      Rout.mulVec ⟨(i : ℝ) / m0 - 1 / 2, (j : ℝ) / m1 - 1 / 2, (k : ℝ) / m2 - 1 / 2⟩ := by
  have e : Spec.position (coordMap Rin Rout) m0 m1 m2 i j k - ⟨1 / 2, 1 / 2, 1 / 2⟩ =
      (inverse Rin).mulVec (Rout.mulVec ⟨(i : ℝ) / m0 - 1 / 2, (j : ℝ) / m1 - 1 / 2, (k : ℝ) / m2 - 1 / 2⟩) := by
    unfold Spec.position coordMap M3.mul M3.mulVec
    ext <;> simp only [V3.add_x, V3.add_y, V3.add_z, V3.sub_x, V3.sub_y, V3.sub_z] <;> ring
  rw [e, inverse_mulVec hR]

/-- **C38, multiplicity.**  The output cell, rectangular or not, has the volume of the input cell times the product of the
multiplication factors; a rectangular cell stays rectangular. -/
theorem C38_volume (Rin : M3 ℝ) (hR : volume Rin ≠ 0) (doRect : Bool) (m : V3 ℝ) :
    ∃ Rout, outLattice Rin doRect none m = some Rout ∧ volume Rout = volume Rin * (m.x * m.y * m.z) ∧
      (doRect = true → Orthogonal Rout) ∧ Rout.c0 = V3.smul m.x Rin.c0 := by
  have hmul : ∀ R : M3 ℝ, volume (multiply m R) = volume R * (m.x * m.y * m.z) := by
    intro R
    unfold volume multiply V3.dot V3.cross
    simp only [V3.smul_x, V3.smul_y, V3.smul_z]
    ring
  have horth : ∀ R : M3 ℝ, Orthogonal R → Orthogonal (multiply m R) := by
    rintro R ⟨h1, h2, h3⟩
    unfold V3.dot at h1 h2 h3
    refine ⟨?_, ?_, ?_⟩ <;> unfold multiply V3.dot <;> simp only [V3.smul_x, V3.smul_y, V3.smul_z]
    · linear_combination m.x * m.y * h1
    · linear_combination m.x * m.z * h2
    · linear_combination m.y * m.z * h3
  unfold outLattice
  cases doRect
  · exact ⟨_, rfl, hmul _, by simp, rfl⟩
  · obtain ⟨R', h, ho, hv, hc⟩ := C38_rectify Rin hR
    refine ⟨multiply m R', by simp [h], by rw [hmul, hv], fun _ => horth _ ho, ?_⟩
    unfold multiply; rw [hc]

/-- **C38, vector components.**  For an orthogonal lattice of nonzero volume the matrix applied to vector fields gives the
components of a Cartesian vector along the unit vectors of the rectangular cell. -/
theorem C38_components (R : M3 ℝ) (ho : Orthogonal R) (hv : volume R ≠ 0) (v : V3 ℝ) :
    (cartMap R).mulVec v = ⟨V3.dot (unit R.c0) v, V3.dot (unit R.c1) v, V3.dot (unit R.c2) v⟩ := by
  have h0 : R.c0 ≠ 0 := by intro e; apply hv; unfold volume; rw [e]; simp [V3.dot]
  have h1 : R.c1 ≠ 0 := by intro e; apply hv; unfold volume; rw [e]; simp [V3.dot, V3.cross]
  have h2 : R.c2 ≠ 0 := by intro e; apply hv; unfold volume; rw [e]; simp [V3.dot, V3.cross]
  have u0 := unit_dot h0
  have u1 := unit_dot h1
  have u2 := unit_dot h2
  obtain ⟨o1, o2, o3⟩ := ho
  have n0 := norm_ne_zero h0
  have n1 := norm_ne_zero h1
  have n2 := norm_ne_zero h2
  have p1 : V3.dot (unit R.c0) (unit R.c1) = 0 := by
    rw [unit_eq h0, unit_eq h1]
    unfold V3.dot at o1 ⊢
    simp only [V3.smul_x, V3.smul_y, V3.smul_z]
    linear_combination (1 / norm R.c0 * (1 / norm R.c1)) * o1
  have p2 : V3.dot (unit R.c0) (unit R.c2) = 0 := by
    rw [unit_eq h0, unit_eq h2]
    unfold V3.dot at o2 ⊢
    simp only [V3.smul_x, V3.smul_y, V3.smul_z]
    linear_combination (1 / norm R.c0 * (1 / norm R.c2)) * o2
  have p3 : V3.dot (unit R.c1) (unit R.c2) = 0 := by
    rw [unit_eq h1, unit_eq h2]
    unfold V3.dot at o3 ⊢
    simp only [V3.smul_x, V3.smul_y, V3.smul_z]
    linear_combination (1 / norm R.c1 * (1 / norm R.c2)) * o3
  have hvol : volume ⟨unit R.c0, unit R.c1, unit R.c2⟩ ≠ 0 := by
    have : volume R = norm R.c0 * norm R.c1 * norm R.c2 * volume ⟨unit R.c0, unit R.c1, unit R.c2⟩ := by
      rw [unit_eq h0, unit_eq h1, unit_eq h2]
      unfold volume V3.dot V3.cross
      simp only [V3.smul_x, V3.smul_y, V3.smul_z]
      field_simp
    intro e
    rw [e, mul_zero] at this
    exact hv this
  unfold cartMap
  generalize unit R.c0 = a at *
  generalize unit R.c1 = b at *
  generalize unit R.c2 = c at *
  have key := inverse_mulVec hvol v
  generalize (inverse ⟨a, b, c⟩).mulVec v = w at *
  rw [← key]
  unfold V3.dot at u0 u1 u2 p1 p2 p3
  unfold M3.mulVec V3.dot
  ext <;> simp only
  · linear_combination (-w.x) * u0 - w.y * p1 - w.z * p2
  · linear_combination (-w.y) * u1 - w.x * p1 - w.z * p3
  · linear_combination (-w.z) * u2 - w.x * p2 - w.y * p3

/-- Non-vacuity: a triangular lattice. -/
example : volume ⟨⟨1, 0, 0⟩, ⟨1 / 2, 1, 0⟩, ⟨0, 0, 1⟩⟩ ≠ 0 := by simp [volume, V3.dot, V3.cross]

/-! ## C39 -/

/-- **C39.**  For every argument: if it contains a colon, the two parts joined by a colon are the argument and the file
name contains no colon (the split is at the first one); if not, the file name is the whole argument and the data set name
is empty. -/
theorem C39_split (fname : List Char) :
    (':' ∈ fname → (splitFname fname).1 ++ ':' :: (splitFname fname).2 = fname ∧ ':' ∉ (splitFname fname).1) ∧
    (':' ∉ fname → splitFname fname = (fname, [])) := by
  constructor
  · intro h
    unfold splitFname
    cases e : fname.findIdx? (· == ':') with
    | none =>
      rw [List.findIdx?_eq_none_iff] at e
      have := e _ h
      simp at this
    | some p =>
      rw [List.findIdx?_eq_some_iff_getElem] at e
      obtain ⟨hp, h1, h2⟩ := e
      simp only [beq_iff_eq] at h1
      have hl : fname.length - (fname.drop p).length = p := by rw [List.length_drop]; omega
      simp only [hl]
      constructor
      · rw [List.drop_drop, ← h1]
        simp
      · intro hm
        obtain ⟨q, hq, e⟩ := List.mem_iff_getElem.1 hm
        rw [List.length_take] at hq
        rw [List.getElem_take] at e
        have := h2 q (by omega)
        simp [e] at this
  · intro h
    unfold splitFname
    have : fname.findIdx? (· == ':') = none := by
      rw [List.findIdx?_eq_none_iff]
      intro x hx
      simp only [beq_eq_false_iff_ne, ne_eq]
      rintro rfl
      exact h hx
    rw [this]
    simp

example : splitFname "a.h5:x:y".toList = ("a.h5".toList, "x:y".toList) := by decide +kernel

end Mpb.MpbData

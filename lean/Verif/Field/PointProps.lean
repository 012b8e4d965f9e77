import Verif.Field.PointModel
import Verif.MpbData.Lemmas

/-!
# Property C40: interpolation of fields at arbitrary points
-/

namespace Mpb.Field
open Spec
open MpbData (trunc rd)

/-! ## Specification -/

/-- A function on the infinite grid with the periods of the cell. -/
def Periodic (S : Shape) {E : Type} (F : ℤ → ℤ → ℤ → E) : Prop :=
  ∀ i j k a b c, F (i + a * S.nx) (j + b * S.ny) (k + c * S.nz) = F i j k

/-- A well-formed shape: a nonempty grid; in the inversion-symmetric build `n/2 + 1` planes of the last dimension (larger
than one) are stored. -/
structure Shape.Ok (S : Shape) : Prop where
  nx : 0 < S.nx
  ny : 0 < S.ny
  nz : 0 < S.nz
  last : S.inv = true → S.nlast = (if S.nz > 1 then S.nz else if S.ny > 1 then S.ny else S.nx) / 2 + 1

/-- The array holds the values of the function `F` at the stored grid points (component at offset `off`, `stride` reals
per point). -/
def Holds (S : Shape) (data : List ℝ) (off stride : ℕ) (F : ℤ → ℤ → ℤ → ℝ) : Prop :=
  ∀ ix iy iz : ℕ, ix < S.dims.1 → iy < S.dims.2.1 → iz < S.dims.2.2 →
    data[off + ((ix * S.dims.2.1 + iy) * S.dims.2.2 + iz) * stride]? = some (F ix iy iz)

/-- The position `p` in grid coordinates: the middle of the cell is the origin. -/
noncomputable def gridPos (S : Shape) (size p : V3 ℝ) : V3 ℝ :=
  ⟨(p.x / size.x + 1 / 2) * S.nx, (p.y / size.y + 1 / 2) * S.ny, (p.z / size.z + 1 / 2) * S.nz⟩

/-- The linear interpolation of `F` at `p`. -/
noncomputable def at_ {E : Type} [AddCommGroup E] [Module ℝ E] (S : Shape) (size p : V3 ℝ) (F : ℤ → ℤ → ℤ → E) : E :=
  trilin F (gridPos S size p).x (gridPos S size p).y (gridPos S size p).z

/-! ## Proof -/

variable {S : Shape}

theorem fract_mul {n : ℕ} (hn : 0 < n) (x : ℝ) :
    ⌊Int.fract x * n⌋ = ⌊x * n⌋ % n ∧ Int.fract x * n - ⌊Int.fract x * n⌋ = Int.fract (x * n) := by
  have h := MpbData.axis_eq hn false x
  have hm0 : 0 ≤ Int.fract x * n := mul_nonneg (Int.fract_nonneg x) (by positivity)
  unfold MpbData.axis MpbData.adjPoint at h
  rw [MpbData.modfPositive_eq] at h
  simp only [MpbData.trunc_nonneg hm0] at h
  have hd : 0 ≤ Int.fract x * n - ⌊Int.fract x * n⌋ := Int.fract_nonneg (Int.fract x * n)
  rw [if_pos hd] at h
  simp only [Bool.false_eq_true, if_false] at h
  split_ifs at h <;> simp only [MpbData.Axis.mk.injEq] at h <;> exact ⟨h.1, h.2.2.2.2⟩

theorem axis1_eq {n : ℕ} (hn : 0 < n) (c : ℝ) :
    axis1 n c = (⌊(c + 1 / 2) * n⌋ % n, (⌊(c + 1 / 2) * n⌋ + 1) % n, Int.fract ((c + 1 / 2) * n)) := by
  have hr : (if c + 1 / 2 - (trunc (c + 1 / 2) : ℝ) < 0 then c + 1 / 2 - trunc (c + 1 / 2) + 1
      else c + 1 / 2 - trunc (c + 1 / 2)) = Int.fract (c + 1 / 2) := by
    have h := congrArg Prod.fst (MpbData.modfPositive_eq (c + 1 / 2))
    unfold MpbData.modfPositive at h
    refine Eq.trans ?_ h
    simp only
    have hb : (trunc (c + 1 / 2) : ℝ) < c + 1 / 2 + 1 ∧ c + 1 / 2 - 1 < trunc (c + 1 / 2) := by
      unfold trunc
      split_ifs
      · exact ⟨by linarith [Int.floor_le (c + 1 / 2)], by linarith [Int.lt_floor_add_one (c + 1 / 2)]⟩
      · exact ⟨Int.ceil_lt_add_one _, by linarith [Int.le_ceil (c + 1 / 2)]⟩
    split_ifs with h1 h2 <;> first | rfl | (exfalso; linarith)
  unfold axis1
  simp only [hr]
  have hm0 : 0 ≤ Int.fract (c + 1 / 2) * n := mul_nonneg (Int.fract_nonneg _) (by positivity)
  rw [MpbData.trunc_nonneg hm0]
  obtain ⟨h1, h2⟩ := fract_mul hn (c + 1 / 2)
  have hf := Int.fract_nonneg ((c + 1 / 2) * n)
  rw [h2, if_pos hf, abs_of_nonneg hf, h1]
  refine Prod.ext rfl (Prod.ext ?_ rfl)
  simp only
  rw [Int.add_emod_left, Int.emod_add_emod]

theorem combine_eq (hS : S.Ok) {D : ℤ → ℤ → ℤ → Option ℝ} {G : ℤ → ℤ → ℤ → ℝ}
    (hD : ∀ i j k : ℤ, D (i % S.nx) (j % S.ny) (k % S.nz) = some (G i j k)) (size p : V3 ℝ) :
    combine D (axis1 S.nx (p.x / size.x)) (axis1 S.ny (p.y / size.y)) (axis1 S.nz (p.z / size.z)) =
      some (at_ S size p G) := by
  unfold combine at_ gridPos
  simp only [axis1_eq hS.nx, axis1_eq hS.ny, axis1_eq hS.nz, hD, Option.bind_eq_bind, Option.bind_some, Option.pure_def,
    trilin_eq, smul_eq_mul]
  congr 1
  ring

theorem emod_facts {n : ℕ} (hn : 0 < n) (i : ℤ) : ∃ a : ℕ, i % n = a ∧ a < n ∧ ∃ q : ℤ, i = a + q * n := by
  refine ⟨(i % n).toNat, ?_, ?_, i / n, ?_⟩
  · have := Int.emod_nonneg i (b := n) (by omega); omega
  · have := Int.emod_lt_of_pos i (b := n) (by omega); have := Int.emod_nonneg i (b := n) (by omega); omega
  · have h1 := Int.emod_nonneg i (b := n) (by omega)
    have := Int.emod_add_mul_ediv i n
    rw [Int.toNat_of_nonneg h1]
    linarith [mul_comm (n : ℤ) (i / n)]

/-- What the reflection does to one index. -/
theorem reflect_idx {n a : ℕ} (ha : a < n) :
    ∃ b : ℕ, (if (a : ℤ) ≠ 0 then (n : ℤ) - a else a) = b ∧ b < n ∧ ∃ q : ℤ, (b : ℤ) = -a + q * n ∧
      (n / 2 + 1 ≤ a → b < n / 2 + 1) := by
  by_cases h : a = 0
  · subst h
    exact ⟨0, by simp, ha, 0, by simp, by omega⟩
  · refine ⟨n - a, ?_, by omega, 1, ?_, by omega⟩
    · rw [if_pos (by omega)]; omega
    · push_cast [Nat.cast_sub ha.le]; ring

/-- The point used is stored, and it is the point itself or its inverse up to a lattice translation. -/
theorem target_spec (hS : S.Ok) {ix iy iz : ℕ} (hx : ix < S.nx) (hy : iy < S.ny) (hz : iz < S.nz) :
    ∃ (a b c : ℕ) (r : Bool), S.target ix iy iz = ((a : ℤ), (b : ℤ), (c : ℤ), r) ∧
      a < S.dims.1 ∧ b < S.dims.2.1 ∧ c < S.dims.2.2 ∧
      (r = false → a = ix ∧ b = iy ∧ c = iz) ∧
      (r = true → S.inv = true ∧ ∃ p q s : ℤ, (a : ℤ) = -ix + p * S.nx ∧ (b : ℤ) = -iy + q * S.ny ∧ (c : ℤ) = -iz + s * S.nz) := by
  unfold Shape.target Shape.dims
  by_cases hi : S.inv = true
  · have hl := hS.last hi
    obtain ⟨a, ea, la, p, hp, ma⟩ := reflect_idx hx
    obtain ⟨b, eb, lb, q, hq, mb⟩ := reflect_idx hy
    obtain ⟨c, ec, lc, s, hs, mc⟩ := reflect_idx hz
    simp only [if_pos hi]
    by_cases h : S.lastIdx ix iy iz ≥ S.nlast
    · refine ⟨a, b, c, true, ?_, ?_⟩
      · simp only [if_pos h, ea, eb, ec]
      · unfold Shape.lastIdx at h
        refine ⟨?_, ?_, ?_, by simp, fun _ => ⟨hi, p, q, s, hp, hq, hs⟩⟩ <;> split_ifs at h hl ⊢ <;> simp only <;> omega
    · refine ⟨ix, iy, iz, false, ?_, ?_⟩
      · simp only [if_neg h]
      · unfold Shape.lastIdx at h
        refine ⟨?_, ?_, ?_, by simp, by simp⟩ <;> split_ifs at h hl ⊢ <;> simp only <;> omega
  · simp only [if_neg hi]
    exact ⟨ix, iy, iz, false, rfl, hx, hy, hz, by simp, by simp⟩

/-- The symmetry of a field component under inversion: even, or odd for imaginary parts. -/
def Sym (S : Shape) (conj : Bool) (F : ℤ → ℤ → ℤ → ℝ) : Prop :=
  S.inv = true → ∀ i j k, F (-i) (-j) (-k) = if conj then -F i j k else F i j k

theorem target_val (hS : S.Ok) {conj : Bool} {F : ℤ → ℤ → ℤ → ℝ} (hF : Periodic S F) (hsym : Sym S conj F) (i j k : ℤ) :
    ∃ (a b c : ℕ) (r : Bool), S.target (i % S.nx) (j % S.ny) (k % S.nz) = ((a : ℤ), (b : ℤ), (c : ℤ), r) ∧
      a < S.dims.1 ∧ b < S.dims.2.1 ∧ c < S.dims.2.2 ∧ (if conj && r then -F a b c else F a b c) = F i j k := by
  obtain ⟨ix, ex, lx, qx, hx⟩ := emod_facts hS.nx i
  obtain ⟨iy, ey, ly, qy, hy⟩ := emod_facts hS.ny j
  obtain ⟨iz, ez, lz, qz, hz⟩ := emod_facts hS.nz k
  obtain ⟨a, b, c, r, ht, la, lb, lc, h1, h2⟩ := target_spec hS lx ly lz
  rw [ex, ey, ez]
  refine ⟨a, b, c, r, ht, la, lb, lc, ?_⟩
  have hF0 : F i j k = F ix iy iz := by
    rw [hx, hy, hz]; exact hF _ _ _ _ _ _
  rw [hF0]
  cases r with
  | false =>
    obtain ⟨rfl, rfl, rfl⟩ := h1 rfl
    simp
  | true =>
    obtain ⟨hi, p, q, s, h3, h4, h5⟩ := h2 rfl
    rw [h3, h4, h5, hF, hsym hi]
    cases conj <;> simp

/-- **C40, one component.**  For every grid, storage mode, position, component and every periodic field (with the
inversion symmetry if half of it is stored) held in the array: all reads are inside the array, and the result is the linear
interpolation of the field. -/
theorem C40_interp (hS : S.Ok) (size p : V3 ℝ) (data : List ℝ) (off stride : ℕ) (conj : Bool) (F : ℤ → ℤ → ℤ → ℝ)
    (hF : Periodic S F) (hsym : Sym S conj F) (hd : Holds S data off stride F) :
    interpVal S size p data off stride conj = some (at_ S size p F) := by
  apply combine_eq hS
  intro i j k
  obtain ⟨a, b, c, r, ht, la, lb, lc, hv⟩ := target_val hS hF hsym i j k
  unfold getVal
  simp only [ht]
  have e : ((off : ℤ) + (((a : ℤ) * S.dims.2.1 + b) * S.dims.2.2 + c) * stride) =
      ((off + ((a * S.dims.2.1 + b) * S.dims.2.2 + c) * stride : ℕ) : ℤ) := by push_cast; ring
  rw [e]
  unfold rd
  rw [if_pos (by omega), Int.toNat_natCast, hd a b c la lb lc, Option.map_some, hv]

/-- Consecutive processes hold consecutive slabs of the stored y dimension, from `a` to `b`. -/
def Slabs : List Proc → ℕ → ℕ → Prop
  | [], a, b => a = b
  | q :: qs, a, b => q.y0 = a ∧ Slabs qs (a + q.ny) b

/-- The process holds its slab of `F`. -/
def Proc.Holds (S : Shape) (q : Proc) (off stride : ℕ) (F : ℤ → ℤ → ℤ → ℝ) : Prop :=
  ∀ ix ly iz : ℕ, ix < S.dims.1 → ly < q.ny → iz < S.dims.2.2 →
    q.data[off + ((ly * S.dims.1 + ix) * S.dims.2.2 + iz) * stride]? = some (F ix (q.y0 + ly : ℕ) iz)

theorem at_add (size p : V3 ℝ) (F G : ℤ → ℤ → ℤ → ℝ) :
    at_ S size p (fun i j k => F i j k + G i j k) = at_ S size p F + at_ S size p G := by
  unfold at_
  simp only [trilin_eq, smul_eq_mul]
  ring

theorem at_zero (size p : V3 ℝ) : at_ S size p (fun _ _ _ => (0 : ℝ)) = 0 := by
  unfold at_
  simp [trilin_eq]

theorem getValMpi_eq {q : Proc} {off stride : ℕ} {F : ℤ → ℤ → ℤ → ℝ} (hq : q.Holds S off stride F) {conj : Bool}
    {i j k : ℤ} {a b c : ℕ} {r : Bool} (ht : S.target i j k = ((a : ℤ), (b : ℤ), (c : ℤ), r)) (la : a < S.dims.1)
    (lc : c < S.dims.2.2) :
    getValMpi S q off stride conj i j k = some (if q.y0 ≤ b ∧ b < q.y0 + q.ny then
      (if conj && r then -F a b c else F a b c) else 0) := by
  unfold getValMpi
  simp only [ht]
  by_cases h : q.y0 ≤ b ∧ b < q.y0 + q.ny
  · have h' : 0 ≤ (b : ℤ) - q.y0 ∧ (b : ℤ) - q.y0 < q.ny := by omega
    rw [if_pos h', if_pos h]
    have hb : (b : ℤ) - q.y0 = ((b - q.y0 : ℕ) : ℤ) := by omega
    have e : ((off : ℤ) + ((((b : ℤ) - q.y0) * S.dims.1 + a) * S.dims.2.2 + c) * stride) =
        ((off + (((b - q.y0) * S.dims.1 + a) * S.dims.2.2 + c) * stride : ℕ) : ℤ) := by rw [hb]; push_cast; ring
    rw [e]
    unfold rd
    rw [if_pos (by omega), Int.toNat_natCast, hq a (b - q.y0) c la (by omega) lc, Option.map_some]
    have : q.y0 + (b - q.y0) = b := by omega
    rw [this]
  · have h' : ¬ (0 ≤ (b : ℤ) - q.y0 ∧ (b : ℤ) - q.y0 < q.ny) := by omega
    rw [if_neg h', if_neg h]
    simp

/-- The part of `F` held by processes whose slabs go from `y0` to `y1`. -/
theorem interpMpi_aux (hS : S.Ok) (size p : V3 ℝ) (off stride : ℕ) (conj : Bool) (F : ℤ → ℤ → ℤ → ℝ)
    (hF : Periodic S F) (hsym : Sym S conj F) (y1 : ℕ) : ∀ (procs : List Proc) (y0 : ℕ), Slabs procs y0 y1 →
    (∀ q ∈ procs, q.Holds S off stride F) → y0 ≤ y1 ∧
    interpValMpi S size p procs off stride conj = some (at_ S size p (fun i j k =>
      if (y0 : ℤ) ≤ (S.target (i % S.nx) (j % S.ny) (k % S.nz)).2.1 ∧
        (S.target (i % S.nx) (j % S.ny) (k % S.nz)).2.1 < y1 then F i j k else 0)) := by
  intro procs
  induction procs with
  | nil =>
    intro y0 h _
    change y0 = y1 at h
    subst h
    refine ⟨le_rfl, ?_⟩
    have : (fun i j k => if (y0 : ℤ) ≤ (S.target (i % S.nx) (j % S.ny) (k % S.nz)).2.1 ∧
        (S.target (i % S.nx) (j % S.ny) (k % S.nz)).2.1 < y0 then F i j k else 0) = fun _ _ _ => (0 : ℝ) := by
      funext i j k; rw [if_neg (by omega)]
    rw [this, at_zero]
    rfl
  | cons q qs ih =>
    intro y0 h hq
    obtain ⟨h1, h2⟩ := h
    obtain ⟨hle, ih⟩ := ih _ h2 (fun q' hq' => hq q' (by simp [hq']))
    refine ⟨by omega, ?_⟩
    have hc : combine (getValMpi S q off stride conj) (axis1 S.nx (p.x / size.x)) (axis1 S.ny (p.y / size.y))
        (axis1 S.nz (p.z / size.z)) = some (at_ S size p (fun i j k =>
          if (y0 : ℤ) ≤ (S.target (i % S.nx) (j % S.ny) (k % S.nz)).2.1 ∧
            (S.target (i % S.nx) (j % S.ny) (k % S.nz)).2.1 < (y0 + q.ny : ℕ) then F i j k else 0)) := by
      apply combine_eq hS
      intro i j k
      obtain ⟨a, b, c, r, ht, la, lb, lc, hv⟩ := target_val hS hF hsym i j k
      rw [getValMpi_eq (hq q (by simp)) ht la lc, hv, ht, h1]
      simp only [Nat.cast_le, Nat.cast_lt]
    unfold interpValMpi at ih ⊢
    rw [List.mapM_cons, hc]
    simp only [Option.bind_eq_bind, Option.bind_some, Option.pure_def]
    obtain ⟨l, hm, ih⟩ := Option.map_eq_some_iff.1 ih
    · rw [hm]
      simp only [Option.bind_some, Option.map_some, List.sum_cons, ih, Option.some.injEq]
      rw [← at_add]
      congr 1
      funext i j k
      split_ifs <;> first | omega | simp

/-- **C40, one component, MPI.**  The same for a run on any number of processes that hold consecutive slabs (possibly
empty) of the field: the sum of their contributions is the interpolation of the whole field. -/
theorem C40_interp_mpi (hS : S.Ok) (size p : V3 ℝ) (procs : List Proc) (off stride : ℕ) (conj : Bool)
    (F : ℤ → ℤ → ℤ → ℝ) (hF : Periodic S F) (hsym : Sym S conj F) (hslab : Slabs procs 0 S.dims.2.1)
    (hd : ∀ q ∈ procs, q.Holds S off stride F) :
    interpValMpi S size p procs off stride conj = some (at_ S size p F) := by
  obtain ⟨-, h⟩ := interpMpi_aux hS size p off stride conj F hF hsym _ procs 0 hslab hd
  rw [h]
  congr 2
  funext i j k
  obtain ⟨a, b, c, r, ht, -, lb, -, -⟩ := target_val hS hF hsym i j k
  rw [ht, if_pos]
  constructor <;> push_cast <;> omega

/-- A complex field on the whole grid is symmetric if the value at the inverted point is the complex conjugate. -/
def ConjSym (S : Shape) (F : ℤ → ℤ → ℤ → ℂ) : Prop :=
  S.inv = true → ∀ i j k, F (-i) (-j) (-k) = (starRingEnd ℂ) (F i j k)

/-- The array holds the complex field `F`: real and imaginary parts adjacent. -/
def HoldsC (S : Shape) (data : List ℝ) (off stride : ℕ) (F : ℤ → ℤ → ℤ → ℂ) : Prop :=
  Holds S data off stride (fun i j k => (F i j k).re) ∧ Holds S data (off + 1) stride (fun i j k => (F i j k).im)

theorem at_complex (size p : V3 ℝ) (F : ℤ → ℤ → ℤ → ℂ) :
    (⟨at_ S size p (fun i j k => (F i j k).re), at_ S size p (fun i j k => (F i j k).im)⟩ : ℂ) = at_ S size p F := by
  unfold at_
  apply Complex.ext <;> simp [trilin_eq]

/-- **C40, complex fields.**  The interpolated complex value; in the inversion-symmetric build the points that are not
stored count with the complex conjugate of the inverted point. -/
theorem C40_complex (hS : S.Ok) (size p : V3 ℝ) (data : List ℝ) (off stride : ℕ) (F : ℤ → ℤ → ℤ → ℂ)
    (hF : Periodic S F) (hsym : ConjSym S F) (hd : HoldsC S data off stride F) :
    interpCval S size p data off stride = some (at_ S size p F) := by
  unfold interpCval
  rw [C40_interp hS size p data off stride false (fun i j k => (F i j k).re)
      (fun i j k a b c => by simp only [hF i j k a b c]) (fun hi i j k => by simp [hsym hi]) hd.1,
    C40_interp hS size p data (off + 1) stride true (fun i j k => (F i j k).im)
      (fun i j k a b c => by simp only [hF i j k a b c]) (fun hi i j k => by simp [hsym hi]) hd.2]
  simp only [Option.bind_eq_bind, Option.bind_some, Option.pure_def, at_complex]

/-- **C40, complex fields, MPI.** -/
theorem C40_complex_mpi (hS : S.Ok) (size p : V3 ℝ) (procs : List Proc) (off stride : ℕ) (F : ℤ → ℤ → ℤ → ℂ)
    (hF : Periodic S F) (hsym : ConjSym S F) (hslab : Slabs procs 0 S.dims.2.1)
    (hd : ∀ q ∈ procs, q.Holds S off stride (fun i j k => (F i j k).re) ∧
      q.Holds S (off + 1) stride (fun i j k => (F i j k).im)) :
    interpCvalMpi S size p procs off stride = some (at_ S size p F) := by
  unfold interpCvalMpi
  rw [C40_interp_mpi hS size p procs off stride false (fun i j k => (F i j k).re)
      (fun i j k a b c => by simp only [hF i j k a b c]) (fun hi i j k => by simp [hsym hi]) hslab (fun q hq => (hd q hq).1),
    C40_interp_mpi hS size p procs (off + 1) stride true (fun i j k => (F i j k).im)
      (fun i j k a b c => by simp only [hF i j k a b c]) (fun hi i j k => by simp [hsym hi]) hslab (fun q hq => (hd q hq).2)]
  simp only [Option.bind_eq_bind, Option.bind_some, Option.pure_def, at_complex]

/-- **C40, exactness.**  At a grid point (of any cell) the interpolation is the value there. -/
theorem C40_exact {E : Type} [AddCommGroup E] [Module ℝ E] (hS : S.Ok) (size : V3 ℝ) (hx : size.x ≠ 0) (hy : size.y ≠ 0)
    (hz : size.z ≠ 0) (F : ℤ → ℤ → ℤ → E) (i j k : ℤ) :
    at_ S size ⟨((i : ℝ) / S.nx - 1 / 2) * size.x, ((j : ℝ) / S.ny - 1 / 2) * size.y, ((k : ℝ) / S.nz - 1 / 2) * size.z⟩ F =
      F i j k := by
  have h0 : (S.nx : ℝ) ≠ 0 := by exact_mod_cast hS.nx.ne'
  have h1 : (S.ny : ℝ) ≠ 0 := by exact_mod_cast hS.ny.ne'
  have h2 : (S.nz : ℝ) ≠ 0 := by exact_mod_cast hS.nz.ne'
  unfold at_ gridPos
  have e : ∀ (m : ℤ) (n s : ℝ), n ≠ 0 → s ≠ 0 → ((m / n - 1 / 2) * s / s + 1 / 2) * n = m := by
    intro m n s hn hs
    field_simp
    ring
  simp only [e _ _ _ h0 hx, e _ _ _ h1 hy, e _ _ _ h2 hz, trilin_int]

/-- **C40, bounds.**  The interpolated value lies in every convex set that contains the field's values. -/
theorem C40_convex {E : Type} [AddCommGroup E] [Module ℝ E] (size p : V3 ℝ) (F : ℤ → ℤ → ℤ → E) (C : Set E)
    (hC : Convex ℝ C) (hF : ∀ i j k, F i j k ∈ C) : at_ S size p F ∈ C :=
  trilin_mem hC hF _ _ _

/-- **C40, periodicity.**  Adding a lattice vector to the position does not change the interpolation of the periodic
field. -/
theorem C40_periodic {E : Type} [AddCommGroup E] [Module ℝ E] (size p : V3 ℝ) (hx : size.x ≠ 0) (hy : size.y ≠ 0)
    (hz : size.z ≠ 0) (F : ℤ → ℤ → ℤ → E) (hF : Periodic S F) (a b c : ℤ) :
    at_ S size (p + ⟨a * size.x, b * size.y, c * size.z⟩) F = at_ S size p F := by
  unfold at_ gridPos
  have e : ∀ (x s : ℝ) (a : ℤ) (n : ℕ), s ≠ 0 → ((x + a * s) / s + 1 / 2) * n = (x / s + 1 / 2) * n + ((a * n : ℤ) : ℝ) := by
    intro x s a n hs
    push_cast
    field_simp
    ring
  simp only [V3.add_x, V3.add_y, V3.add_z, e _ _ _ _ hx, e _ _ _ _ hy, e _ _ _ _ hz, trilin_add_int]
  congr 1
  funext i j k
  exact hF _ _ _ _ _ _

theorem blochPhase_eq (size k p : V3 ℝ) : blochPhase size k p =
    Complex.exp (2 * Real.pi * Complex.I * (k.x * (p.x / size.x : ℝ) + k.y * (p.y / size.y : ℝ) + k.z * (p.z / size.z : ℝ))) := by
  have h : ∀ φ : ℝ, (⟨Real.cos φ, Real.sin φ⟩ : ℂ) = Complex.exp (φ * Complex.I) := by
    intro φ
    rw [Complex.exp_mul_I, ← Complex.ofReal_cos, ← Complex.ofReal_sin]
    apply Complex.ext <;> simp [-Complex.ofReal_cos, -Complex.ofReal_sin]
  unfold blochPhase
  rw [h]
  congr 1
  push_cast
  ring

/-- **C40, the Bloch field.**  `get-field-point` returns, at every position, the interpolated periodic part times
`exp(2πi k·p)`; moving by a lattice vector multiplies it by `exp(2πi k·R)`.  The three components are held interleaved. -/
theorem C40_field (hS : S.Ok) (size k p : V3 ℝ) (data : List ℝ) (F0 F1 F2 : ℤ → ℤ → ℤ → ℂ)
    (hF : Periodic S F0 ∧ Periodic S F1 ∧ Periodic S F2) (hsym : ConjSym S F0 ∧ ConjSym S F1 ∧ ConjSym S F2)
    (hd : HoldsC S data 0 6 F0 ∧ HoldsC S data 2 6 F1 ∧ HoldsC S data 4 6 F2) :
    fieldPoint S size k p true data = some
      ⟨at_ S size p F0 * blochPhase size k p, at_ S size p F1 * blochPhase size k p, at_ S size p F2 * blochPhase size k p⟩ ∧
    fieldPoint S size k p false data = some ⟨at_ S size p F0, at_ S size p F1, at_ S size p F2⟩ := by
  unfold fieldPoint blochFieldPoint
  rw [C40_complex hS size p data 0 6 F0 hF.1 hsym.1 hd.1, C40_complex hS size p data 2 6 F1 hF.2.1 hsym.2.1 hd.2.1,
    C40_complex hS size p data 4 6 F2 hF.2.2 hsym.2.2 hd.2.2]
  exact ⟨rfl, rfl⟩

/-- **C40, scalar fields.**  `get-energy-point` and `get-cscalar-point`. -/
theorem C40_scalar (hS : S.Ok) (size k p : V3 ℝ) (data : List ℝ) :
    (∀ F : ℤ → ℤ → ℤ → ℝ, Periodic S F → Sym S false F → Holds S data 0 1 F →
      energyPoint S size p data = some (at_ S size p F)) ∧
    (∀ F : ℤ → ℤ → ℤ → ℂ, Periodic S F → ConjSym S F → HoldsC S data 0 2 F →
      cscalarPoint S size k p data = some (at_ S size p F * blochPhase size k p)) := by
  refine ⟨fun F h1 h2 h3 => C40_interp hS size p data 0 1 false F h1 h2 h3, fun F h1 h2 h3 => ?_⟩
  unfold cscalarPoint
  rw [C40_complex hS size p data 0 2 F h1 h2 h3]
  rfl

/-- The phase picked up over a lattice vector. -/
theorem C40_bloch (size k p : V3 ℝ) (hx : size.x ≠ 0) (hy : size.y ≠ 0) (hz : size.z ≠ 0) (a b c : ℤ) :
    blochPhase size k (p + ⟨a * size.x, b * size.y, c * size.z⟩) =
      Complex.exp (2 * Real.pi * Complex.I * (k.x * a + k.y * b + k.z * c)) * blochPhase size k p := by
  rw [blochPhase_eq, blochPhase_eq, ← Complex.exp_add]
  congr 1
  simp only [V3.add_x, V3.add_y, V3.add_z, add_div, mul_div_assoc, div_self hx, div_self hy, div_self hz]
  push_cast
  ring

/-- Non-vacuity: the half-stored 1d grid with 3 points, values `5, 2+i, 2-i` (stored: the first two). -/
def exS : Shape := ⟨3, 1, 1, true, 4⟩

example : exS.Ok := ⟨by decide, by decide, by decide, fun _ => by decide⟩

/-- The whole field. -/
noncomputable def exF (i _j _k : ℤ) : ℂ := if i % 3 = 0 then 5 else if i % 3 = 1 then ⟨2, 1⟩ else ⟨2, -1⟩

example : Periodic exS exF := by
  intro i j k a b c
  unfold exF
  simp [exS]

example : ConjSym exS exF := by
  intro _ i j k
  unfold exF
  have h : i % 3 = 0 ∨ i % 3 = 1 ∨ i % 3 = 2 := by omega
  rcases h with h | h | h
  · rw [if_pos (by omega), if_pos h]; exact (map_ofNat (starRingEnd ℂ) 5).symm
  · rw [if_neg (by omega), if_neg (by omega), if_neg (by omega), if_pos h]; rfl
  · rw [if_neg (by omega), if_pos (by omega), if_neg (by omega), if_neg (by omega)]
    apply Complex.ext <;> simp

example : HoldsC exS [5, 0, 2, 1] 0 2 exF := by
  constructor <;> intro ix iy iz hx hy hz
  all_goals
    have hd : exS.dims = (2, 1, 1) := by decide
    rw [hd] at hx hy hz
    simp only at hx hy hz
    have h1 : iy = 0 := by omega
    have h2 : iz = 0 := by omega
    subst h1 h2
    rw [hd]
    have h3 : ix = 0 ∨ ix = 1 := by omega
    rcases h3 with rfl | rfl
    · simp [exF]
    · simp [exF]

end Mpb.Field

import Verif.Transform.Spec
import Verif.Field.EnergyProps
import Mathlib.Tactic.FieldSimp
import Mathlib.Tactic.LinearCombination

/-!
# C83: symmetry overlaps
-/

namespace Mpb.Transform
open Mpb.Field Mpb.Field.Spec Mpb.Maxwell Mpb.Maxwell.Spec Mpb.Spec

/-! ## Matrices -/

theorem inverse_mul {m : M3 ℝ} (h : m.det ≠ 0) : (inverse m).mul m = M3.one := by
  obtain ⟨d, hd⟩ : ∃ d, d = m.det := ⟨_, rfl⟩
  have e := hd
  rw [← hd] at h
  unfold M3.det at e
  ext <;> simp only [M3.mul, inverse, M3.mulVec, M3.one, ← hd] <;> field_simp <;> first | ring1 | (rw [e]; ring1)

theorem mul_inverse {m : M3 ℝ} (h : m.det ≠ 0) : m.mul (inverse m) = M3.one := by
  obtain ⟨d, hd⟩ : ∃ d, d = m.det := ⟨_, rfl⟩
  have e := hd
  rw [← hd] at h
  unfold M3.det at e
  ext <;> simp only [M3.mul, inverse, M3.mulVec, M3.one, ← hd] <;> field_simp <;> first | ring1 | (rw [e]; ring1)

theorem M3mul_assoc (a b c : M3 ℝ) : (a.mul b).mul c = a.mul (b.mul c) := by
  ext <;> simp only [M3.mul, M3.mulVec] <;> ring

theorem M3mul_one (a : M3 ℝ) : a.mul M3.one = a := by
  ext <;> simp [M3.mul, M3.mulVec, M3.one]

theorem M3one_mul (a : M3 ℝ) : M3.one.mul a = a := by
  ext <;> simp [M3.mul, M3.mulVec, M3.one]

theorem det_mul (a b : M3 ℝ) : (a.mul b).det = a.det * b.det := by
  simp only [M3.det, M3.mul, M3.mulVec]
  ring

theorem op_unique {C : Ctx} (hC : C.Ok) {W Winv Wc : M3 ℝ} (h : IsOp C W Winv Wc) :
    inverse W = Winv ∧ (C.basis.mul W).mul (inverse C.basis) = Wc := by
  have hd : W.det ≠ 0 := by
    intro h0
    have := det_mul Winv W
    rw [h.inv, h0, mul_zero] at this
    simp [M3.det, M3.one] at this
  refine ⟨?_, ?_⟩
  · have := M3mul_assoc Winv W (inverse W)
    rw [h.inv, mul_inverse hd, M3mul_one, M3one_mul] at this
    exact this
  · rw [← h.cart, M3mul_assoc, mul_inverse hC.basis, M3mul_one]

theorem rot_eq (m : M3 ℝ) (v : V3 ℂ) : rot m v = applyC m v := by
  ext <;> apply Complex.ext <;> simp [rot, applyC]

theorem conjMult_eq (b c : ℂ) : conjMult b c = (starRingEnd ℂ) b * c := by
  apply Complex.ext <;> simp [conjMult]
  ring

/-! ## Loops -/

theorem loop_eq (n : ℕ) (f : ℕ → ℂ → Option ℂ) (g : ℕ → ℂ) (h : ∀ i < n, ∀ a, f i a = some (a + g i)) (acc : ℂ) :
    loop n f acc = some (acc + ∑ i ∈ Finset.range n, g i) := by
  unfold loop
  induction n with
  | zero => simp
  | succ n ih =>
    rw [List.range_succ, List.foldlM_append, ih (fun i hi => h i (by omega)), Finset.sum_range_succ]
    simp [h n (by omega), add_assoc]

/-! ## Grid points -/

theorem lin_at {E : Type} [AddCommGroup E] [Module ℝ E] (g : ℤ → E) (u : ℝ) (i : ℤ) (h : u = i ∨ ∀ a, g a = g i) : Spec.lin g u = g i := by
  rcases h with rfl | h
  · exact lin_int g i
  · unfold Spec.lin
    rw [h ⌊u⌋, h (⌊u⌋ + 1), ← add_smul]
    simp

theorem trilin_at {E : Type} [AddCommGroup E] [Module ℝ E] {S : Shape} (F : ℤ → ℤ → ℤ → E) (hF : Periodic S F) {u v w : ℝ} {i j k : ℤ}
    (hu : u = i ∨ S.nx = 1) (hv : v = j ∨ S.ny = 1) (hw : w = k ∨ S.nz = 1) : Spec.trilin F u v w = F i j k := by
  have e : ∀ a b c a' b' c', (S.nx = 1 ∨ a = a') → (S.ny = 1 ∨ b = b') → (S.nz = 1 ∨ c = c') → F a b c = F a' b' c' := by
    intro a b c a' b' c' h1 h2 h3
    have := hF a' b' c' (if S.nx = 1 then a - a' else 0) (if S.ny = 1 then b - b' else 0) (if S.nz = 1 then c - c' else 0)
    rw [← this]
    congr 1
    · split_ifs with h
      · rw [h]; push_cast; ring
      · rw [h1.resolve_left h]; ring
    · split_ifs with h
      · rw [h]; push_cast; ring
      · rw [h2.resolve_left h]; ring
    · split_ifs with h
      · rw [h]; push_cast; ring
      · rw [h3.resolve_left h]; ring
  unfold Spec.trilin
  have e1 : ∀ a b, Spec.lin (fun c => F a b c) w = F a b k := fun a b =>
    lin_at _ _ k (hw.imp id fun h c => e _ _ _ _ _ _ (Or.inr rfl) (Or.inr rfl) (Or.inl h))
  have e2 : ∀ a, Spec.lin (fun b => Spec.lin (fun c => F a b c) w) v = F a j k := by
    intro a
    simp only [e1]
    exact lin_at (fun b => F a b k) _ j (hv.imp id fun h c => e _ _ _ _ _ _ (Or.inr rfl) (Or.inl h) (Or.inr rfl))
  simp only [e2]
  exact lin_at (fun a => F a j k) _ i (hu.imp id fun h c => e _ _ _ _ _ _ (Or.inl h) (Or.inr rfl) (Or.inr rfl))

theorem vecAt_some {data : List ℝ} {n : ℕ} {v : V3 ℂ} (h : vecAt data n = some v) :
    data[6 * n]? = some v.x.re ∧ data[6 * n + 1]? = some v.x.im ∧ data[6 * n + 2]? = some v.y.re ∧ data[6 * n + 3]? = some v.y.im ∧
      data[6 * n + 4]? = some v.z.re ∧ data[6 * n + 5]? = some v.z.im := by
  unfold vecAt at h
  simp only [Option.bind_eq_bind, Option.bind_eq_some_iff, Option.pure_def, Option.some.injEq] at h
  obtain ⟨a, ha, b, hb, c, hc, d, hd, e, he, f, hf, rfl⟩ := h
  exact ⟨ha, hb, hc, hd, he, hf⟩

theorem holds_of {S : Shape} (hi : S.inv = false) {data : List ℝ} {F : GridField} (h : Stores S data F) :
    HoldsC S data 0 6 (fun i j k => (F i j k).x) ∧ HoldsC S data 2 6 (fun i j k => (F i j k).y) ∧ HoldsC S data 4 6 (fun i j k => (F i j k).z) := by
  have hd : S.dims = (S.nx, S.ny, S.nz) := by simp [Shape.dims, hi]
  have key : ∀ ix iy iz : ℕ, ix < S.nx → iy < S.ny → iz < S.nz → _ := fun ix iy iz h1 h2 h3 => vecAt_some (h ix iy iz h1 h2 h3)
  refine ⟨⟨?_, ?_⟩, ⟨?_, ?_⟩, ⟨?_, ?_⟩⟩ <;> intro ix iy iz h1 h2 h3 <;> rw [hd] at h1 h2 h3 ⊢ <;> obtain ⟨a, b, c, d, e, f⟩ := key ix iy iz h1 h2 h3
  · rw [← a]; congr 1; ring
  · rw [← b]; congr 1; ring
  · rw [← c]; congr 1; ring
  · rw [← d]; congr 1; ring
  · rw [← e]; congr 1; ring
  · rw [← f]; congr 1; ring

/-- The interpolated periodic part. -/
noncomputable def atV (C : Ctx) (F : GridField) (p : V3 ℝ) : V3 ℂ :=
  ⟨at_ C.S C.size p fun i j k => (F i j k).x, at_ C.S C.size p fun i j k => (F i j k).y, at_ C.S C.size p fun i j k => (F i j k).z⟩

theorem shapeOk {C : Ctx} (hC : C.Ok) : C.S.Ok := ⟨hC.nx, hC.ny, hC.nz, fun h => by rw [hC.inv] at h; cases h⟩

theorem blochFieldPoint_eq {C : Ctx} (hC : C.Ok) {data : List ℝ} {F : GridField} (hF : Periodic C.S F) (h : Stores C.S data F) (p : V3 ℝ) :
    blochFieldPoint C.S C.size p data = some (atV C F p) := by
  have hs : ∀ G, ConjSym C.S G := fun G h => by rw [hC.inv] at h; cases h
  obtain ⟨h0, h1, h2⟩ := holds_of hC.inv h
  unfold blochFieldPoint
  rw [C40_complex (shapeOk hC) C.size p data 0 6 _ (fun i j k a b c => by simp only [hF i j k a b c]) (hs _) h0,
    C40_complex (shapeOk hC) C.size p data 2 6 _ (fun i j k a b c => by simp only [hF i j k a b c]) (hs _) h1,
    C40_complex (shapeOk hC) C.size p data 4 6 _ (fun i j k a b c => by simp only [hF i j k a b c]) (hs _) h2]
  rfl

theorem coord_eq {n : ℕ} (hn : 0 < n) (s : ℝ) (i : ℕ) (hi : i < n) : coord n s i = if n = 1 then 0 else ((i : ℝ) / n - 1 / 2) * s := by
  unfold coord
  by_cases h : n = 1
  · have : i = 0 := by omega
    subst h; subst this
    simp
  · rw [if_neg (by omega), if_neg h]
    ring

theorem point_eq {C : Ctx} (hC : C.Ok) {i j k : ℕ} (hi : i < C.S.nx) (hj : j < C.S.ny) (hk : k < C.S.nz) : point C i j k = gridPoint C i j k := by
  unfold point gridPoint
  rw [coord_eq hC.nx _ _ hi, coord_eq hC.ny _ _ hj, coord_eq hC.nz _ _ hk]
  rfl

theorem axis_at {n : ℕ} (hn : 0 < n) {s : ℝ} (hs : s ≠ 0) (i : ℤ) :
    ((if n = 1 then 0 else ((i : ℝ) / n - 1 / 2) * s) / s + 1 / 2) * n = i ∨ n = 1 := by
  by_cases h : n = 1
  · exact Or.inr h
  · left
    have : (n : ℝ) ≠ 0 := by exact_mod_cast hn.ne'
    rw [if_neg h]
    field_simp
    ring

theorem atV_grid {C : Ctx} (hC : C.Ok) {F : GridField} (hF : Periodic C.S F) (i j k : ℤ) : atV C F (gridPoint C i j k) = F i j k := by
  have e : ∀ G : ℤ → ℤ → ℤ → ℂ, Periodic C.S G → at_ C.S C.size (gridPoint C i j k) G = G i j k := by
    intro G hG
    unfold at_ gridPos gridPoint
    exact trilin_at G hG (axis_at hC.nx hC.sx i) (axis_at hC.ny hC.sy j) (axis_at hC.nz hC.sz k)
  unfold atV
  rw [e _ (fun i j k a b c => by simp only [hF i j k a b c]), e _ (fun i j k a b c => by simp only [hF i j k a b c]),
    e _ (fun i j k a b c => by simp only [hF i j k a b c])]

theorem mulVec_scale (M : HMat) (v : V3 ℂ) (z : ℂ) : M.mulVec (V3.map (· * z) v) = V3.map (· * z) (M.mulVec v) := by
  ext <;> apply Complex.ext <;> simp [HMat.mulVec, V3.map] <;> ring

theorem conjugate_scale (C : Ctx) (ty : Char) (n : ℕ) (v : V3 ℂ) (z : ℂ) :
    conjugate C ty n (V3.map (· * z) v) = V3.map (· * z) (conjugate C ty n v) := by
  unfold conjugate
  split_ifs
  · exact mulVec_scale _ _ _
  · cases C.muInv with
    | none => rfl
    | some mu => exact mulVec_scale _ _ _

theorem applyC_scale (m : M3 ℝ) (v : V3 ℂ) (z : ℂ) : applyC m (V3.map (· * z) v) = V3.map (· * z) (applyC m v) := by
  ext <;> simp [applyC] <;> ring

theorem herm_scale (a b : V3 ℂ) (y z : ℂ) : herm (V3.map (· * y) a) (V3.map (· * z) b) = (starRingEnd ℂ) y * z * herm a b := by
  simp [herm]
  ring

theorem phase_diff (C : Ctx) (p q : V3 ℝ) :
    (starRingEnd ℂ) (blochPhase C.size C.k p) * blochPhase C.size C.k q =
      (⟨Real.cos (C.k.x * (2 * Real.pi / C.size.x) * (q.x - p.x) + C.k.y * (2 * Real.pi / C.size.y) * (q.y - p.y) +
          C.k.z * (2 * Real.pi / C.size.z) * (q.z - p.z)),
        Real.sin (C.k.x * (2 * Real.pi / C.size.x) * (q.x - p.x) + C.k.y * (2 * Real.pi / C.size.y) * (q.y - p.y) +
          C.k.z * (2 * Real.pi / C.size.z) * (q.z - p.z))⟩ : ℂ) := by
  have e : C.k.x * (2 * Real.pi / C.size.x) * (q.x - p.x) + C.k.y * (2 * Real.pi / C.size.y) * (q.y - p.y) +
          C.k.z * (2 * Real.pi / C.size.z) * (q.z - p.z) =
      2 * Real.pi * (C.k.x * (q.x / C.size.x) + C.k.y * (q.y / C.size.y) + C.k.z * (q.z / C.size.z)) -
      2 * Real.pi * (C.k.x * (p.x / C.size.x) + C.k.y * (p.y / C.size.y) + C.k.z * (p.z / C.size.z)) := by ring
  rw [e, Real.cos_sub, Real.sin_sub]
  unfold blochPhase
  apply Complex.ext <;> simp <;> ring

theorem energyField_eq (C : Ctx) {ty : Char} (h : ty = 'd' ∨ ty = 'b') (n : ℕ) (v : V3 ℂ) :
    energyField ty C.epsInv C.muInv n v = conjugate C ty n v := by
  unfold energyField conjugate
  rcases h with rfl | rfl
  · rfl
  · rw [if_neg (by decide), if_pos rfl, if_neg (by decide)]
    cases C.muInv <;> rfl

theorem body_eq {C : Ctx} (hC : C.Ok) {data : List ℝ} {F : GridField} (hF : Periodic C.S F) (h : Stores C.S data F) {ty : Char}
    (hty : ty = 'd' ∨ ty = 'b') (w : V3 ℝ) (Winv Wc : M3 ℝ) {i j k : ℕ} (hi : i < C.S.nx) (hj : j < C.S.ny) (hk : k < C.S.nz) (acc : ℂ) :
    body C ty data ⟨C.k.x * (2 * Real.pi / C.size.x), C.k.y * (2 * Real.pi / C.size.y), C.k.z * (2 * Real.pi / C.size.z)⟩ w Winv Wc i j k acc =
      some (acc + herm (conjugate C ty (index C i j k) (blochField C F (gridPoint C i j k))) (opField Winv Wc w (blochField C F) (gridPoint C i j k))) := by
  unfold body
  rw [point_eq hC hi hj hk]
  dsimp only
  rw [blochFieldPoint_eq hC hF h, h i j k hi hj hk]
  simp only [Option.bind_eq_bind, Option.bind_some, Option.pure_def, Option.some.injEq]
  rw [energyField_eq C hty, rot_eq, ← phase_diff]
  have e1 : blochField C F (gridPoint C i j k) = V3.map (· * blochPhase C.size C.k (gridPoint C i j k)) (F i j k) := by
    show V3.map _ (atV C F _) = _
    rw [atV_grid hC hF]
  unfold opField
  rw [e1, conjugate_scale]
  show _ = acc + herm _ (applyC Wc (V3.map (· * blochPhase C.size C.k _) (atV C F _)))
  rw [applyC_scale, herm_scale]
  simp only [conjMult_eq, herm, index]
  ring

/-- C83, main statement (the complex serial build; the other builds end the program with a message).  `transformed-overlap` of a D or B field
is the overlap integral of the conjugate field with the transformed field, both with their Bloch phases, over the grid; for B, a
pseudovector, times the determinant. -/
theorem C83_overlap {C : Ctx} (hC : C.Ok) {data : List ℝ} {F : GridField} (hF : Periodic C.S F) (h : Stores C.S data F) {ty : Char}
    (hty : ty = 'd' ∨ ty = 'b') {W Winv Wc : M3 ℝ} (hW : IsOp C W Winv Wc) (hdet : |(|W.det| - 1)| ≤ 1e-12) (w : V3 ℝ) :
    transformedOverlap C (some ty) data W w = some (sign ty W * overlap C ty F (opField Winv Wc w (blochField C F))) := by
  unfold transformedOverlap
  simp only
  rw [if_neg (by rcases hty with rfl | rfl <;> decide), if_neg (not_lt.2 hdet), (op_unique hC hW).1, (op_unique hC hW).2]
  rw [loop_eq C.S.nx _ (fun i => ∑ j ∈ Finset.range C.S.ny, ∑ k ∈ Finset.range C.S.nz,
    herm (conjugate C ty (index C i j k) (blochField C F (gridPoint C i j k))) (opField Winv Wc w (blochField C F) (gridPoint C i j k)))]
  · simp only [Option.map_some, Option.some.injEq, zero_add, sign, overlap, gridSum]
    split_ifs
    · ring
    · ring
  · intro i hi a
    rw [loop_eq C.S.ny _ (fun j => ∑ k ∈ Finset.range C.S.nz,
      herm (conjugate C ty (index C i j k) (blochField C F (gridPoint C i j k))) (opField Winv Wc w (blochField C F) (gridPoint C i j k)))]
    intro j hj a
    rw [loop_eq C.S.nz _ (fun k =>
      herm (conjugate C ty (index C i j k) (blochField C F (gridPoint C i j k))) (opField Winv Wc w (blochField C F) (gridPoint C i j k)))]
    intro k hk a
    exact body_eq hC hF h hty w Winv Wc hi hj hk a

/-- Anything else gives 0: another current field, or a matrix that is not a symmetry operation. -/
theorem C83_rejects (C : Ctx) (ty : Option Char) (data : List ℝ) (W : M3 ℝ) (w : V3 ℝ)
    (h : (ty ≠ some 'd' ∧ ty ≠ some 'b') ∨ |(|W.det| - 1)| > 1e-12) : transformedOverlap C ty data W w = some 0 := by
  unfold transformedOverlap
  cases ty with
  | none => rfl
  | some c =>
    simp only [ne_eq, Option.some.injEq] at h ⊢
    by_cases hc : ¬c = 'd' ∧ ¬c = 'b'
    · rw [if_pos hc]
    · rw [if_neg hc, if_pos (h.resolve_left hc)]

/-- C83, symmetric fields: if the field is multiplied by `l` by the operation (at the grid points) the overlap is `l` times the overlap of the
field with itself. -/
theorem C83_eigenvalue {C : Ctx} (hC : C.Ok) {data : List ℝ} {F : GridField} (hF : Periodic C.S F) (h : Stores C.S data F) {ty : Char}
    (hty : ty = 'd' ∨ ty = 'b') {W Winv Wc : M3 ℝ} (hW : IsOp C W Winv Wc) (hdet : |(|W.det| - 1)| ≤ 1e-12) (w : V3 ℝ) (l : ℂ)
    (hl : ∀ i j k : ℕ, i < C.S.nx → j < C.S.ny → k < C.S.nz →
      opField Winv Wc w (blochField C F) (gridPoint C i j k) = V3.map (· * l) (blochField C F (gridPoint C i j k))) :
    transformedOverlap C (some ty) data W w = some (sign ty W * l * overlap C ty F (blochField C F)) := by
  rw [C83_overlap hC hF h hty hW hdet w, Option.some.injEq]
  have e : overlap C ty F (opField Winv Wc w (blochField C F)) = l * overlap C ty F (blochField C F) := by
    unfold overlap gridSum
    have : ∀ a b : V3 ℂ, herm a (V3.map (· * l) b) = l * herm a b := by
      intro a b
      simp [herm]
      ring
    simp only [Finset.mul_sum]
    refine Finset.sum_congr rfl fun i hi => Finset.sum_congr rfl fun j hj => Finset.sum_congr rfl fun k hk => ?_
    rw [hl i j k (Finset.mem_range.1 hi) (Finset.mem_range.1 hj) (Finset.mem_range.1 hk), this]
    ring
  rw [e]
  ring

/-! ## The energy -/

theorem sum_flat (a b : ℕ) (f : ℕ → ℂ) : ∑ i ∈ Finset.range a, ∑ j ∈ Finset.range b, f (i * b + j) = ∑ n ∈ Finset.range (a * b), f n := by
  induction a with
  | zero => simp
  | succ a ih => rw [Finset.sum_range_succ, ih, Nat.succ_mul, Finset.sum_range_add]

theorem gridSum_flat (C : Ctx) (f : ℕ → ℂ) :
    (gridSum C fun i j k => f (index C i j k)) = ∑ n ∈ Finset.range (C.S.nx * C.S.ny * C.S.nz), f n := by
  unfold gridSum index
  rw [← sum_flat, ← sum_flat C.S.nx C.S.ny (fun n => ∑ k ∈ Finset.range C.S.nz, f (n * C.S.nz + k))]

/-- The energy that `compute-field-energy` returns for the current field. -/
noncomputable def energy (C : Ctx) (ty : Char) (data : List ℝ) : ℝ :=
  (fieldEnergy (energyField ty C.epsInv C.muInv) (fun _ => false) (C.S.nx * C.S.ny * C.S.nz) (C.S.nx * C.S.ny * C.S.nz) C.vol
    (fun a => data.getD a 0)).1

theorem conjugate_herm (C : Ctx) (ty : Char) (n : ℕ) (a b : V3 ℂ) :
    herm (conjugate C ty n a) b = (starRingEnd ℂ) (herm (conjugate C ty n b) a) := by
  have e : ∀ u v : V3 ℂ, herm u v = (starRingEnd ℂ) (herm v u) := by
    intro u v
    simp [herm]
    ring
  have hM : ∀ M : HMat, herm (M.mulVec a) b = (starRingEnd ℂ) (herm (M.mulVec b) a) := by
    intro M
    rw [e, herm_mulVec_symm M b a, ← e (M.mulVec b) a]
  unfold conjugate
  split_ifs
  · exact hM _
  · cases C.muInv with
    | none => exact e _ _
    | some mu => exact hM _

theorem phase_unit (C : Ctx) (p : V3 ℝ) : (starRingEnd ℂ) (blochPhase C.size C.k p) * blochPhase C.size C.k p = 1 := by
  rw [phase_diff]
  apply Complex.ext <;> simp

theorem vecAt_cvec {data : List ℝ} {n : ℕ} {v : V3 ℂ} (h : vecAt data n = some v) : cvec (fun a => data.getD a 0) n = v := by
  obtain ⟨a, b, c, d, e, f⟩ := vecAt_some h
  unfold cvec cplx
  simp only [List.getD_eq_getElem?_getD]
  rw [show 2 * (3 * n) = 6 * n by ring, show 2 * (3 * n + 1) = 6 * n + 2 by ring, show 2 * (3 * n + 2) = 6 * n + 4 by ring, a, b, c, d, e, f]
  rfl

theorem overlap_energy {C : Ctx} (hC : C.Ok) {data : List ℝ} {F : GridField} (hF : Periodic C.S F) (h : Stores C.S data F) {ty : Char}
    (hty : ty = 'd' ∨ ty = 'b') : overlap C ty F (blochField C F) = (energy C ty data : ℝ) := by
  set T := energyField ty C.epsInv C.muInv with hT
  have e1 : ∀ i j k : ℕ, i < C.S.nx → j < C.S.ny → k < C.S.nz →
      herm (conjugate C ty (index C i j k) (blochField C F (gridPoint C i j k))) (blochField C F (gridPoint C i j k)) =
        ((density T (cvec (fun a => data.getD a 0)) (index C i j k) : ℝ) : ℂ) := by
    intro i j k hi hj hk
    have e1 : blochField C F (gridPoint C i j k) = V3.map (· * blochPhase C.size C.k (gridPoint C i j k)) (F i j k) := by
      show V3.map _ (atV C F _) = _
      rw [atV_grid hC hF]
    rw [e1, conjugate_scale, herm_scale, phase_unit, one_mul]
    unfold density
    have hv : cvec (fun a => data.getD a 0) (index C i j k) = F i j k := vecAt_cvec (h i j k hi hj hk)
    rw [hv, hT, energyField_eq C hty]
    have h1 := conjugate_herm C ty (index C i j k) (F i j k) (F i j k)
    have h2 : herm (F i j k) (conjugate C ty (index C i j k) (F i j k)) = herm (conjugate C ty (index C i j k) (F i j k)) (F i j k) := by
      have e : ∀ u v : V3 ℂ, herm u v = (starRingEnd ℂ) (herm v u) := by
        intro u v
        simp [herm]
        ring
      rw [e, ← h1]
    rw [h2]
    exact (Complex.conj_eq_iff_re.1 h1.symm).symm
  have e2 : (gridSum C fun i j k => herm (conjugate C ty (index C i j k) (blochField C F (gridPoint C i j k))) (blochField C F (gridPoint C i j k))) =
      gridSum C fun i j k => ((density T (cvec (fun a => data.getD a 0)) (index C i j k) : ℝ) : ℂ) := by
    unfold gridSum
    exact Finset.sum_congr rfl fun i hi => Finset.sum_congr rfl fun j hj => Finset.sum_congr rfl fun k hk =>
      e1 i j k (Finset.mem_range.1 hi) (Finset.mem_range.1 hj) (Finset.mem_range.1 hk)
  unfold overlap energy fieldEnergy
  rw [e2, gridSum_flat C (fun n => ((density T (cvec (fun a => data.getD a 0)) n : ℝ) : ℂ))]
  simp only
  rw [(energyLoop_inv _ _ _ _).2.1]
  have e3 : ∀ (N : ℕ) (f : ℕ → ℝ), rangeSum (fun _ => false) N f = ∑ n ∈ Finset.range N, f n := by
    intro N f
    unfold rangeSum
    induction N with
    | zero => simp
    | succ n ih => rw [List.range_succ, List.foldl_append, ih, Finset.sum_range_succ]; simp
  rw [e3, ← Complex.ofReal_sum, ← Complex.ofReal_mul]
  congr 1
  ring

/-- Every array of the right length stores a field. -/
theorem exists_field {C : Ctx} (hC : C.Ok) (data : List ℝ) (h : 6 * (C.S.nx * C.S.ny * C.S.nz) ≤ data.length) :
    ∃ F : GridField, Periodic C.S F ∧ Stores C.S data F := by
  refine ⟨fun i j k => cvec (fun a => data.getD a 0) (((i % C.S.nx).toNat * C.S.ny + (j % C.S.ny).toNat) * C.S.nz + (k % C.S.nz).toNat), ?_, ?_⟩
  · intro i j k a b c
    simp only [Int.add_mul_emod_self_right]
  · intro i j k hi hj hk
    have e : ∀ {a n : ℕ}, a < n → ((a : ℤ) % n).toNat = a := by
      intro a n h
      rw [Int.emod_eq_of_lt (by omega) (by omega)]
      rfl
    beta_reduce
    rw [e hi, e hj, e hk]
    have hlt : (i * C.S.ny + j) * C.S.nz + k < C.S.nx * C.S.ny * C.S.nz := by
      have h1 : i * C.S.ny + j + 1 ≤ C.S.nx * C.S.ny := by
        calc i * C.S.ny + j + 1 ≤ i * C.S.ny + C.S.ny := by omega
          _ = (i + 1) * C.S.ny := by ring
          _ ≤ _ := Nat.mul_le_mul_right _ hi
      calc (i * C.S.ny + j) * C.S.nz + k < (i * C.S.ny + j) * C.S.nz + C.S.nz := by omega
        _ = (i * C.S.ny + j + 1) * C.S.nz := by ring
        _ ≤ _ := Nat.mul_le_mul_right _ h1
    generalize (i * C.S.ny + j) * C.S.nz + k = n at hlt
    have g : ∀ a, a < data.length → data[a]? = some (data.getD a 0) := by
      intro a ha
      rw [List.getD_eq_getElem?_getD, List.getElem?_eq_getElem ha]
      rfl
    unfold vecAt cvec cplx
    rw [g _ (by omega), g _ (by omega), g _ (by omega), g _ (by omega), g _ (by omega), g _ (by omega)]
    rw [show 2 * (3 * n) = 6 * n by ring, show 2 * (3 * n + 1) = 6 * n + 2 by ring, show 2 * (3 * n + 2) = 6 * n + 4 by ring]
    rfl

/-- C83, lattice translations: the overlap of a Bloch field with itself moved by the lattice vector `R = (a,b,c)` is `exp(-2πi k·R)` times its
energy, the one `compute-field-energy` returns. In particular (`a = b = c = 0`) the identity gives the energy. -/
theorem C83_translation {C : Ctx} (hC : C.Ok) {data : List ℝ} (h : 6 * (C.S.nx * C.S.ny * C.S.nz) ≤ data.length) {ty : Char}
    (hty : ty = 'd' ∨ ty = 'b') (a b c : ℤ) :
    transformedOverlap C (some ty) data M3.one ⟨a * C.size.x, b * C.size.y, c * C.size.z⟩ =
      some (Complex.exp (-(2 * Real.pi * Complex.I * (C.k.x * a + C.k.y * b + C.k.z * c))) * (energy C ty data : ℝ)) := by
  obtain ⟨F, hF, hs⟩ := exists_field hC data h
  have hop : IsOp C M3.one M3.one M3.one := ⟨M3mul_one _, by rw [M3mul_one, M3one_mul]⟩
  have hdet : (M3.one : M3 ℝ).det = 1 := by simp [M3.det, M3.one]
  rw [C83_eigenvalue hC hF hs hty hop (by rw [hdet]; norm_num) _
    (Complex.exp (-(2 * Real.pi * Complex.I * (C.k.x * a + C.k.y * b + C.k.z * c)))), overlap_energy hC hF hs hty]
  · unfold sign
    rw [hdet]
    split_ifs <;> simp
  · intro i j k _ _ _
    set p := gridPoint C i j k
    set R : V3 ℝ := ⟨a * C.size.x, b * C.size.y, c * C.size.z⟩
    have e0 : M3.one.mulVec (p - R) = p - R := by ext <;> simp [M3.mulVec, M3.one]
    have e1 : ∀ v : V3 ℂ, applyC M3.one v = v := by intro v; ext <;> simp [applyC, M3.one]
    have e2 : p - R = p + ⟨(-a : ℤ) * C.size.x, (-b : ℤ) * C.size.y, (-c : ℤ) * C.size.z⟩ := by
      ext <;> simp [R] <;> ring
    unfold opField
    rw [e0, e1, e2]
    unfold blochField
    rw [C40_bloch _ _ _ hC.sx hC.sy hC.sz, C40_periodic _ _ hC.sx hC.sy hC.sz _ (fun i j k a b c => by simp only [hF i j k a b c]),
      C40_periodic _ _ hC.sx hC.sy hC.sz _ (fun i j k a b c => by simp only [hF i j k a b c]),
      C40_periodic _ _ hC.sx hC.sy hC.sz _ (fun i j k a b c => by simp only [hF i j k a b c])]
    have e3 : 2 * Real.pi * Complex.I * (C.k.x * ((-a : ℤ) : ℂ) + C.k.y * ((-b : ℤ) : ℂ) + C.k.z * ((-c : ℤ) : ℂ)) =
        -(2 * Real.pi * Complex.I * (C.k.x * a + C.k.y * b + C.k.z * c)) := by
      push_cast; ring
    rw [e3]
    ext <;> simp only [V3.map] <;> ring

/-- C83, all bands: `compute-symmetries` of a lattice translation is the list of `exp(-2πi k·R)` for the bands found by the eigensolver
(of norm 1 and eigenvectors of the Maxwell operator). -/
theorem C83_bands {C : Ctx} (hC : C.Ok) (d : OpData) (hS : C.S.nx * C.S.ny * C.S.nz = d.N) (he : C.epsInv = d.epsInv) (hm : C.muInv = d.muInv)
    (hW : AdjointTransforms d) (hU : Parseval d) (K : ℕ → V3 ℝ) (hK : ∀ G < d.N, IsBasis (K G) (d.kpg G)) (p : ℕ) (H : ℕ → ℂ)
    (buf : ℕ → ℕ → ℂ) (lam : ℕ → ℝ) (hV : 0 < C.vol) (nb : ℕ) (hx : ∀ b < nb, EigenBand d (band p H b) (lam b)) (a b c : ℤ) :
    computeSymmetries C nb (fun ib => fieldList d.N (getB d p H (buf ib) C.vol ib)) M3.one ⟨a * C.size.x, b * C.size.y, c * C.size.z⟩ =
      some (List.replicate nb (Complex.exp (-(2 * Real.pi * Complex.I * (C.k.x * a + C.k.y * b + C.k.z * c))))) := by
  unfold computeSymmetries
  have hN : 0 < d.N := by rw [← hS]; exact Nat.mul_pos (Nat.mul_pos hC.nx hC.ny) hC.nz
  have key : ∀ ib < nb, transformedOverlap C (some 'b') (fieldList d.N (getB d p H (buf ib) C.vol ib)) M3.one ⟨a * C.size.x, b * C.size.y, c * C.size.z⟩ =
      some (Complex.exp (-(2 * Real.pi * Complex.I * (C.k.x * a + C.k.y * b + C.k.z * c)))) := by
    intro ib hib
    rw [C83_translation hC (by rw [hS]; simp [fieldList]) (Or.inr rfl)]
    have hE : energy C 'b' (fieldList d.N (getB d p H (buf ib) C.vol ib)) = 1 := by
      rw [← C47_b d hN hW hU K hK p H (buf ib) ib (lam ib) C.vol hV (hx ib hib)]
      unfold energy
      rw [hS, he, hm]
      unfold fieldEnergy
      simp only
      rw [(energyLoop_inv _ _ _ _).2.1, (energyLoop_inv _ _ _ _).2.1]
      have hcong : ∀ n < d.N, cvec (fun a => (fieldList d.N (getB d p H (buf ib) C.vol ib)).getD a 0) n = cvec (toReals (getB d p H (buf ib) C.vol ib)) n := by
        intro n hn
        have g : ∀ a, a < 6 * d.N → (fieldList d.N (getB d p H (buf ib) C.vol ib)).getD a 0 = toReals (getB d p H (buf ib) C.vol ib) a := by
          intro a ha
          unfold fieldList
          rw [List.getD_eq_getElem?_getD, List.getElem?_map, List.getElem?_range ha]
          rfl
        unfold cvec cplx
        simp only
        rw [g _ (by omega), g _ (by omega), g _ (by omega), g _ (by omega), g _ (by omega), g _ (by omega)]
      have e3 : ∀ (N : ℕ) (f g : ℕ → ℝ), (∀ n < N, f n = g n) → rangeSum (fun _ => false) N f = rangeSum (fun _ => false) N g := by
        intro N f g h
        unfold rangeSum
        induction N with
        | zero => rfl
        | succ n ih => simp only [List.range_succ, List.foldl_append, ih (fun m hm => h m (by omega))]; simp [h n (by omega)]
      rw [e3 _ _ _ fun n hn => by unfold density; rw [hcong n hn]]
      rfl
    rw [hE]
    simp
  clear hx
  induction nb with
  | zero => rfl
  | succ n ih =>
    rw [List.range_succ, List.mapM_append, ih fun ib h => key ib (by omega)]
    simp [key n (by omega), List.replicate_succ']

/-! ## The bound -/

/-- The operation permutes the grid points, up to lattice vectors. -/
structure GridOp (C : Ctx) (Winv : M3 ℝ) (w : V3 ℝ) (s : ℕ × ℕ × ℕ → ℕ × ℕ × ℕ) : Prop where
  maps : ∀ t, t.1 < C.S.nx → t.2.1 < C.S.ny → t.2.2 < C.S.nz → (s t).1 < C.S.nx ∧ (s t).2.1 < C.S.ny ∧ (s t).2.2 < C.S.nz
  inj : ∀ t u, t.1 < C.S.nx → t.2.1 < C.S.ny → t.2.2 < C.S.nz → u.1 < C.S.nx → u.2.1 < C.S.ny → u.2.2 < C.S.nz → s t = s u → t = u
  pos : ∀ t, t.1 < C.S.nx → t.2.1 < C.S.ny → t.2.2 < C.S.nz → ∃ a b c : ℤ,
    Winv.mulVec (gridPoint C t.1 t.2.1 t.2.2 - w) = gridPoint C (s t).1 (s t).2.1 (s t).2.2 + ⟨a * C.size.x, b * C.size.y, c * C.size.z⟩

/-- The medium is symmetric. -/
def Invariant (C : Ctx) (ty : Char) (Wc : M3 ℝ) (s : ℕ × ℕ × ℕ → ℕ × ℕ × ℕ) : Prop :=
  ∀ t v, t.1 < C.S.nx → t.2.1 < C.S.ny → t.2.2 < C.S.nz →
    conjugate C ty (index C t.1 t.2.1 t.2.2) (applyC Wc v) = applyC Wc (conjugate C ty (index C (s t).1 (s t).2.1 (s t).2.2) v)

/-- A transformation that keeps lengths and angles. -/
def Orthogonal (Wc : M3 ℝ) : Prop := ∀ a b, herm (applyC Wc a) (applyC Wc b) = herm a b

/-- The energy density is not negative. -/
def Positive (C : Ctx) (ty : Char) : Prop := ∀ n v, 0 ≤ (herm (conjugate C ty n v) v).re

theorem conjugate_sub (C : Ctx) (ty : Char) (n : ℕ) (u v : V3 ℂ) (z : ℂ) :
    conjugate C ty n (u - V3.map (· * z) v) = conjugate C ty n u - V3.map (· * z) (conjugate C ty n v) := by
  have hM : ∀ M : HMat, M.mulVec (u - V3.map (· * z) v) = M.mulVec u - V3.map (· * z) (M.mulVec v) := by
    intro M
    ext <;> apply Complex.ext <;> simp [HMat.mulVec, V3.map] <;> ring
  unfold conjugate
  split_ifs
  · exact hM _
  · cases C.muInv with
    | none => rfl
    | some mu => exact hM _

theorem quad_sub (C : Ctx) (ty : Char) (n : ℕ) (u v : V3 ℂ) (z : ℂ) (hz : (starRingEnd ℂ) z * z = 1) :
    (herm (conjugate C ty n (u - V3.map (· * z) v)) (u - V3.map (· * z) v)).re =
      (herm (conjugate C ty n u) u).re + (herm (conjugate C ty n v) v).re - 2 * (z * herm (conjugate C ty n u) v).re := by
  rw [conjugate_sub]
  have e : herm (conjugate C ty n u - V3.map (· * z) (conjugate C ty n v)) (u - V3.map (· * z) v) =
      herm (conjugate C ty n u) u + (starRingEnd ℂ) z * z * herm (conjugate C ty n v) v - z * herm (conjugate C ty n u) v -
        (starRingEnd ℂ) z * herm (conjugate C ty n v) u := by
    simp [herm]
    ring
  rw [e, conjugate_herm C ty n v u, ← map_mul, hz]
  simp only [Complex.sub_re, Complex.add_re, Complex.conj_re, one_mul]
  ring

/-- Cauchy and Schwarz, for two fields of the same energy. -/
theorem bound_aux {ι : Type*} (t : Finset ι) (A B X : ι → ℂ) (E : ℝ) (hE : 0 ≤ E)
    (h : ∀ z : ℂ, (starRingEnd ℂ) z * z = 1 → 0 ≤ ∑ i ∈ t, ((A i).re + (B i).re - 2 * (z * X i).re))
    (hA : (∑ i ∈ t, A i).re = E) (hB : (∑ i ∈ t, B i).re = E) : ‖∑ i ∈ t, X i‖ ≤ E := by
  set b := ∑ i ∈ t, X i with hb
  by_cases h0 : b = 0
  · rw [h0, norm_zero]; exact hE
  · have hn : (‖b‖ : ℂ) ≠ 0 := by exact_mod_cast norm_ne_zero_iff.2 h0
    have hbb : (starRingEnd ℂ) b * b = (‖b‖ : ℂ) * ‖b‖ := by
      rw [mul_comm, Complex.mul_conj, Complex.normSq_eq_norm_sq]
      push_cast; ring
    have := h ((starRingEnd ℂ) b / ‖b‖) (by
      rw [map_div₀, Complex.conj_conj, Complex.conj_ofReal, div_mul_div_comm, mul_comm b, hbb, div_self (mul_ne_zero hn hn)])
    simp only [Finset.sum_sub_distrib, Finset.sum_add_distrib, ← Finset.mul_sum, ← Complex.re_sum] at this
    rw [← hb, hA, hB, div_mul_eq_mul_div, hbb, mul_div_assoc, div_self hn, mul_one, Complex.ofReal_re] at this
    linarith

/-- The grid points of the cell. -/
def cell (C : Ctx) : Finset (ℕ × ℕ × ℕ) := Finset.range C.S.nx ×ˢ Finset.range C.S.ny ×ˢ Finset.range C.S.nz

theorem gridSum_cell (C : Ctx) (f : ℕ → ℕ → ℕ → ℂ) : gridSum C f = ∑ t ∈ cell C, f t.1 t.2.1 t.2.2 := by
  unfold gridSum cell
  rw [Finset.sum_product]
  refine Finset.sum_congr rfl fun i _ => ?_
  rw [Finset.sum_product]

theorem mem_cell {C : Ctx} {t : ℕ × ℕ × ℕ} : t ∈ cell C ↔ t.1 < C.S.nx ∧ t.2.1 < C.S.ny ∧ t.2.2 < C.S.nz := by
  simp [cell]

theorem sum_perm {C : Ctx} {Winv : M3 ℝ} {w : V3 ℝ} {s : ℕ × ℕ × ℕ → ℕ × ℕ × ℕ} (hs : GridOp C Winv w s) (f : ℕ × ℕ × ℕ → ℂ) :
    ∑ t ∈ cell C, f (s t) = ∑ t ∈ cell C, f t := by
  have hm : Set.MapsTo s (cell C) (cell C) := fun t ht => by
    have := mem_cell.1 ht
    exact mem_cell.2 (hs.maps t this.1 this.2.1 this.2.2)
  have hi : Set.InjOn s (cell C) := fun t ht u hu e => by
    have h1 := mem_cell.1 ht
    have h2 := mem_cell.1 hu
    exact hs.inj t u h1.1 h1.2.1 h1.2.2 h2.1 h2.2.1 h2.2.2 e
  exact Finset.sum_nbij s hm hi (Finset.surjOn_of_injOn_of_card_le s hm hi (le_refl _)) (fun _ _ => rfl)

/-- C83, bound: for an operation that is a symmetry of the lattice (`Wc` is orthogonal), of the grid and of the medium the overlap is at most
the energy of the field. -/
theorem C83_bound {C : Ctx} (hC : C.Ok) (hvol : 0 ≤ C.vol) {data : List ℝ} (h : 6 * (C.S.nx * C.S.ny * C.S.nz) ≤ data.length) {ty : Char}
    (hty : ty = 'd' ∨ ty = 'b') {W Winv Wc : M3 ℝ} (hW : IsOp C W Winv Wc) (hdet : |W.det| = 1) (w : V3 ℝ)
    {s : ℕ × ℕ × ℕ → ℕ × ℕ × ℕ} (hs : GridOp C Winv w s) (hO : Orthogonal Wc) (hI : Invariant C ty Wc s) (hP : Positive C ty) :
    ∃ z, transformedOverlap C (some ty) data W w = some z ∧ ‖z‖ ≤ energy C ty data := by
  obtain ⟨F, hF, hst⟩ := exists_field hC data h
  refine ⟨_, C83_overlap hC hF hst hty hW (by rw [hdet]; norm_num) w, ?_⟩
  have hsign : ‖sign ty W‖ = 1 := by
    unfold sign
    split_ifs
    · rw [Complex.norm_real, Real.norm_eq_abs, hdet]
    · simp
  rw [norm_mul, hsign, one_mul]
  set B := blochField C F with hB
  have hEn := overlap_energy hC hF hst hty
  have hc : 0 ≤ C.vol / (C.S.nx * C.S.ny * C.S.nz : ℕ) := div_nonneg hvol (Nat.cast_nonneg _)
  set q := C.vol / (C.S.nx * C.S.ny * C.S.nz : ℕ) with hq
  -- the pieces
  set idx : ℕ × ℕ × ℕ → ℕ := fun t => index C t.1 t.2.1 t.2.2 with hidx
  set g : ℕ × ℕ × ℕ → V3 ℝ := fun t => gridPoint C t.1 t.2.1 t.2.2 with hg
  set A : ℕ × ℕ × ℕ → ℂ := fun t => herm (conjugate C ty (idx t) (B (g t))) (B (g t)) with hA
  have hdens : ∀ t, 0 ≤ (A t).re := fun t => hP _ _
  have hsumA : overlap C ty F B = (q : ℂ) * ∑ t ∈ cell C, A t := by
    unfold overlap
    rw [gridSum_cell]
  have hE0 : 0 ≤ (∑ t ∈ cell C, A t).re := by
    rw [Complex.re_sum]
    exact Finset.sum_nonneg fun t _ => hdens t
  have hE : energy C ty data = q * (∑ t ∈ cell C, A t).re := by
    have h1 : ((energy C ty data : ℝ) : ℂ).re = ((q : ℂ) * ∑ t ∈ cell C, A t).re := by rw [← hEn, hsumA]
    rw [Complex.ofReal_re, Complex.re_ofReal_mul] at h1
    exact h1
  set O : ℕ × ℕ × ℕ → V3 ℂ := fun t => opField Winv Wc w B (g t) with hOdef
  have hX : overlap C ty F (opField Winv Wc w B) = (q : ℂ) * ∑ t ∈ cell C, herm (conjugate C ty (idx t) (B (g t))) (O t) := by
    unfold overlap
    rw [gridSum_cell]
  -- the energy of the transformed field
  have hO2 : ∀ t ∈ cell C, herm (conjugate C ty (idx t) (O t)) (O t) = A (s t) := by
    intro t ht
    obtain ⟨h1, h2, h3⟩ := mem_cell.1 ht
    obtain ⟨a, b, c, hp⟩ := hs.pos t h1 h2 h3
    have e : O t = applyC Wc (V3.map (· * Complex.exp (2 * Real.pi * Complex.I * (C.k.x * a + C.k.y * b + C.k.z * c))) (B (g (s t)))) := by
      simp only [hOdef, opField]
      rw [show Winv.mulVec (g t - w) = g (s t) + ⟨a * C.size.x, b * C.size.y, c * C.size.z⟩ from hp]
      congr 1
      rw [hB]
      unfold blochField
      rw [C40_bloch _ _ _ hC.sx hC.sy hC.sz, C40_periodic _ _ hC.sx hC.sy hC.sz _ (fun i j k a b c => by simp only [hF i j k a b c]),
        C40_periodic _ _ hC.sx hC.sy hC.sz _ (fun i j k a b c => by simp only [hF i j k a b c]),
        C40_periodic _ _ hC.sx hC.sy hC.sz _ (fun i j k a b c => by simp only [hF i j k a b c])]
      ext <;> simp only [V3.map] <;> ring
    rw [e, hI t _ h1 h2 h3, hO, conjugate_scale, herm_scale]
    have hu : (starRingEnd ℂ) (Complex.exp (2 * Real.pi * Complex.I * (C.k.x * a + C.k.y * b + C.k.z * c))) *
        Complex.exp (2 * Real.pi * Complex.I * (C.k.x * a + C.k.y * b + C.k.z * c)) = 1 := by
      rw [← Complex.exp_conj, ← Complex.exp_add]
      have : (starRingEnd ℂ) (2 * Real.pi * Complex.I * (C.k.x * a + C.k.y * b + C.k.z * c)) + 2 * Real.pi * Complex.I * (C.k.x * a + C.k.y * b + C.k.z * c) = 0 := by
        simp only [map_mul, map_add, Complex.conj_ofReal, Complex.conj_I, map_ofNat, map_intCast]
        ring
      rw [this, Complex.exp_zero]
    rw [hu, one_mul]
  have hO3 : ∑ t ∈ cell C, herm (conjugate C ty (idx t) (O t)) (O t) = ∑ t ∈ cell C, A t := by
    rw [Finset.sum_congr rfl hO2, sum_perm hs A]
  have hb := bound_aux (cell C) A (fun t => herm (conjugate C ty (idx t) (O t)) (O t)) (fun t => herm (conjugate C ty (idx t) (B (g t))) (O t))
    (∑ t ∈ cell C, A t).re hE0 (fun z hz => Finset.sum_nonneg fun t _ => by
      rw [hA]
      simp only
      rw [← quad_sub C ty (idx t) (B (g t)) (O t) z hz]
      exact hP _ _) rfl (by rw [hO3])
  rw [hX, hE, norm_mul, Complex.norm_real, Real.norm_eq_abs, abs_of_nonneg hc]
  exact mul_le_mul_of_nonneg_left hb hc


/-! ## Non-vacuity -/

/-- Two grid points along x, a cubic lattice, `k = (1/4,0,0)`, vacuum. -/
noncomputable def exC : Ctx := ⟨⟨2, 1, 1, false, 4⟩, ⟨1, 1, 1⟩, M3.one, ⟨1 / 4, 0, 0⟩, 1, fun _ => ⟨1, 1, 1, 0, 0, 0⟩, none⟩

/-- Inversion. -/
def neg1 : M3 ℝ := ⟨⟨-1, 0, 0⟩, ⟨0, -1, 0⟩, ⟨0, 0, -1⟩⟩

theorem exC_ok : exC.Ok := by
  constructor <;> simp [exC, M3.det, M3.one]

theorem exC_op : IsOp exC neg1 neg1 neg1 := by
  constructor <;> ext <;> simp [exC, M3.mul, M3.mulVec, M3.one, neg1]

/-- Inversion maps the point at `-1/2` to `1/2`, its copy, and the origin to itself. -/
theorem exC_grid : GridOp exC neg1 ⟨0, 0, 0⟩ id := by
  refine ⟨fun t h1 h2 h3 => ⟨h1, h2, h3⟩, fun t u _ _ _ _ _ _ h => h, ?_⟩
  rintro ⟨i, j, k⟩ h1 h2 h3
  have hi : i = 0 ∨ i = 1 := by
    have : i < 2 := h1
    omega
  rcases hi with rfl | rfl
  · exact ⟨1, 0, 0, by ext <;> simp [gridPoint, exC, M3.mulVec, neg1]; norm_num⟩
  · exact ⟨0, 0, 0, by ext <;> simp [gridPoint, exC, M3.mulVec, neg1]⟩

/-- The hypotheses of `C83_bound` (and so those of `C83_overlap`) are met by inversion, for every field. -/
example (data : List ℝ) (h : 12 ≤ data.length) (ty : Char) (hty : ty = 'd' ∨ ty = 'b') :
    ∃ z, transformedOverlap exC (some ty) data neg1 ⟨0, 0, 0⟩ = some z ∧ ‖z‖ ≤ energy exC ty data := by
  have hc : ∀ n v, conjugate exC ty n v = v := by
    intro n v
    unfold conjugate
    split_ifs
    · ext <;> apply Complex.ext <;> simp [exC, HMat.mulVec]
    · rfl
  refine C83_bound exC_ok (by simp [exC]) (by simpa [exC] using h) hty exC_op (by simp [M3.det, neg1]) _ exC_grid ?_ ?_ ?_
  · intro a b
    simp [applyC, neg1, herm]
  · intro t v _ _ _
    rw [hc, hc]
  · intro n v
    rw [hc]
    simp only [herm, Complex.add_re, Complex.mul_re, Complex.conj_re, Complex.conj_im]
    nlinarith [mul_self_nonneg v.x.re, mul_self_nonneg v.x.im, mul_self_nonneg v.y.re, mul_self_nonneg v.y.im, mul_self_nonneg v.z.re,
      mul_self_nonneg v.z.im]

/-- The phase of a translation by one lattice vector at `k = 1/4` is `-i`. -/
example (data : List ℝ) (h : 12 ≤ data.length) :
    transformedOverlap exC (some 'd') data M3.one ⟨(1 : ℤ) * 1, (0 : ℤ) * 1, (0 : ℤ) * 1⟩ = some (-Complex.I * (energy exC 'd' data : ℝ)) := by
  have := C83_translation exC_ok (data := data) (by simpa [exC] using h) (ty := 'd') (Or.inl rfl) 1 0 0
  refine this.trans ?_
  congr 2
  have : -(2 * (Real.pi : ℂ) * Complex.I * ((exC.k.x : ℂ) * (1 : ℤ) + exC.k.y * (0 : ℤ) + exC.k.z * (0 : ℤ))) = -(Real.pi / 2 * Complex.I) := by
    simp [exC]
    ring
  rw [this, Complex.exp_neg, Complex.exp_pi_div_two_mul_I]
  simp

/-- `C83_bands` for the plane wave of `exD_eigen` (one grid point, one band), with the identity. -/
example (k : V3 ℝ) : computeSymmetries ⟨⟨1, 1, 1, false, 2⟩, ⟨1, 1, 1⟩, M3.one, k, 8, exD.epsInv, exD.muInv⟩ 1
    (fun ib => fieldList exD.N (getB exD 1 (fun a => if a = 0 then 1 else 0) 0 8 ib)) M3.one ⟨(0 : ℤ) * 1, (0 : ℤ) * 1, (0 : ℤ) * 1⟩ = some [1] := by
  have := C83_bands (C := ⟨⟨1, 1, 1, false, 2⟩, ⟨1, 1, 1⟩, M3.one, k, 8, exD.epsInv, exD.muInv⟩)
    (by constructor <;> simp [M3.det, M3.one]) exD rfl rfl rfl exD_ok.2.1 exD_ok.2.2 _ exD_basis 1 (fun a => if a = 0 then 1 else 0) (fun _ => 0)
    (fun _ => 4) (by norm_num) 1 (fun b hb => by
      have : b = 0 := by omega
      subst this
      exact exD_eigen) 0 0 0
  refine this.trans ?_
  simp

end Mpb.Transform

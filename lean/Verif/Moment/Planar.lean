import Verif.Moment.Props
import Mathlib.Algebra.Polynomial.Eval.Degree
import Mathlib.Algebra.Polynomial.Degree.Lemmas

/-!
# C88: the normal vector of a plane interface
-/

namespace Mpb.Moment
open Mpb.Tensor Mpb.Tensor.Spec Matrix

/-- The trace of the dielectric tensor at a point (lattice coordinates) depends only on the height of the point along `n`: a plane interface, or a
stack of layers, sharp or smooth, with profile `f`. -/
def Layered (epsilon : V3 ℝ → HMat × HMat) (R : M3 ℝ) (n : V3 ℝ) (f : ℝ → ℝ) : Prop :=
  ∀ r, (toMatrix (epsilon r).1).trace.re = f (n.dot (R.mulVec r))

/-- Weighted sum over the directions. -/
noncomputable def dirSum (tbl : List Entry) (n : V3 ℝ) (g : ℝ → ℝ) (F : V3 ℝ → ℝ) : ℝ := (tbl.map fun e => e.2 * g (n.dot e.1) * F e.1).sum

theorem dirSum_inv {tbl : List Entry} {q : V3 ℝ → V3 ℝ} (h : Invariant q tbl) {n : V3 ℝ} (hn : ∀ v, n.dot (q v) = n.dot v) (g : ℝ → ℝ) (F : V3 ℝ → ℝ) :
    dirSum tbl n g F = dirSum tbl n g fun v => F (q v) := by
  unfold dirSum
  rw [h.sum]
  simp only [hn]

theorem dirSum_mul (tbl : List Entry) (n : V3 ℝ) (g : ℝ → ℝ) (c : ℝ) (F : V3 ℝ → ℝ) : dirSum tbl n g (fun v => c * F v) = c * dirSum tbl n g F := by
  unfold dirSum
  rw [← List.sum_map_mul_left]
  congr 1
  exact List.map_congr_left fun e _ => by ring

theorem dirSum_add (tbl : List Entry) (n : V3 ℝ) (g : ℝ → ℝ) (F F' : V3 ℝ → ℝ) :
    dirSum tbl n g (fun v => F v + F' v) = dirSum tbl n g F + dirSum tbl n g F' := by
  unfold dirSum
  rw [← List.sum_map_add]
  congr 1
  exact List.map_congr_left fun e _ => by ring

theorem normal_dirSum {epsilon : V3 ℝ → HMat × HMat} {R : M3 ℝ} {n : V3 ℝ} {f : ℝ → ℝ} (h : Layered epsilon R n f) {fl : ℝ → ℝ} {N : V3 ℕ} {G : M3 ℝ}
    (hd : Dual R G) {mesh : List Entry} (hm : getMomentMesh fl N R G = some mesh) (r : V3 ℝ) :
    ∃ tbl c, Good (rankOf N) tbl ∧ sphereQuad fl (rankOf N) = some tbl ∧ ∀ i, comp (interfaceNormal epsilon mesh R r) i =
      c * dirSum tbl n (fun t => f (n.dot (R.mulVec r) + c * t)) fun v => comp v i := by
  obtain ⟨tbl, hg, h1, h2⟩ := getMomentMesh_eq fl N R G
  rw [h2] at hm
  cases hm
  refine ⟨tbl, meshR (rankOf N) * maxDiam (rankOf N) N R, hg, h1, fun i => ?_⟩
  set c := meshR (rankOf N) * maxDiam (rankOf N) N R with hc
  have hR : ∀ v, R.mulVec (offset N R G v) = V3.smul c v := fun v => hd _
  rw [interfaceNormal_eq]
  have key : ∀ l : List Entry, comp (R.mulVec (dipole epsilon (l.map fun e => (offset N R G e.1, e.2)) r)) i =
      (l.map fun e => Spec.charge epsilon r (offset N R G e.1, e.2) * comp (R.mulVec (offset N R G e.1)) i).sum := by
    intro l
    induction l with
    | nil => fin_cases i <;> simp [dipole, M3.mulVec, comp]
    | cons e l ih =>
      have hr : ((e :: l).map fun e => Spec.charge epsilon r (offset N R G e.1, e.2) * comp (R.mulVec (offset N R G e.1)) i).sum =
          Spec.charge epsilon r (offset N R G e.1, e.2) * comp (R.mulVec (offset N R G e.1)) i +
            comp (R.mulVec (dipole epsilon (l.map fun e => (offset N R G e.1, e.2)) r)) i := by
        rw [ih, List.map_cons, List.sum_cons]
      rw [hr]
      simp only [List.map_cons, dipole, List.sum_cons]
      fin_cases i <;> simp only [M3.mulVec, comp, Fin.zero_eta, Fin.mk_one, Fin.reduceFinMk, Matrix.cons_val] <;> ring
  rw [key]
  unfold dirSum
  rw [← List.sum_map_mul_left]
  congr 1
  refine List.map_congr_left fun e _ => ?_
  rw [hR]
  unfold Spec.charge
  have e2 : (⟨r.x + (offset N R G e.1).x, r.y + (offset N R G e.1).y, r.z + (offset N R G e.1).z⟩ : V3 ℝ) = r + offset N R G e.1 := rfl
  dsimp only
  rw [e2, h]
  have e3 : R.mulVec (r + offset N R G e.1) = R.mulVec r + V3.smul c e.1 := by
    rw [← hR]
    ext <;> simp [M3.mulVec] <;> ring
  have e4 : n.dot (R.mulVec r + V3.smul c e.1) = n.dot (R.mulVec r) + c * n.dot e.1 := by
    simp [V3.dot]; ring
  have e5 : comp (V3.smul c e.1) i = c * comp e.1 i := by fin_cases i <;> rfl
  rw [e3, e4, e5]
  ring

/-! ## Sharp interfaces along symmetry axes -/

theorem dot_comp (v w : V3 ℝ) : v.dot w = ∑ i, comp v i * comp w i := by
  rw [Fin.sum_univ_three]; rfl

/-- A direction with components `0, s, -s` is kept by the mesh: the sum of `g(n·v) v` is along `n`. -/
theorem axis_sum {tbl : List Entry} (hg : Good 3 tbl) {n : V3 ℝ} (hn : ∀ i j, comp n i = 0 ∨ comp n j = 0 ∨ |comp n i| = |comp n j|) (g : ℝ → ℝ) (i j : Fin 3) :
    comp n i * dirSum tbl n g (fun v => comp v j) = comp n j * dirSum tbl n g (fun v => comp v i) := by
  classical
  have hsym : ∀ T : Axes, Invariant T.act tbl := fun T => hg.sym _ ⟨T, rfl⟩
  have zero : ∀ i, comp n i = 0 → dirSum tbl n g (fun v => comp v i) = 0 := by
    intro i hi
    have h1 := dirSum_inv (hsym ⟨1, fun k => decide (k = i)⟩) (n := n) (fun v => by
      rw [dot_comp, dot_comp]
      refine Finset.sum_congr rfl fun k _ => ?_
      rw [comp_act]
      simp only [decide_eq_true_eq, Equiv.Perm.one_apply]
      split_ifs with hk
      · rw [hk, hi]; ring
      · rfl) g (fun v => comp v i)
    have h2 : (fun v : V3 ℝ => comp ((⟨1, fun k => decide (k = i)⟩ : Axes).act v) i) = fun v => (-1) * comp v i := by
      funext v
      rw [comp_act]
      simp
    rw [h2, dirSum_mul] at h1
    linarith
  by_cases hi : comp n i = 0
  · rw [hi, zero i hi]; ring
  by_cases hj : comp n j = 0
  · rw [hj, zero j hj]; ring
  by_cases hij : i = j
  · rw [hij]
  have habs : |comp n i| = |comp n j| := (hn i j).resolve_left hi |>.resolve_left hj
  rcases abs_eq_abs.mp habs with h | h
  · have h1 := dirSum_inv (hsym ⟨Equiv.swap i j, fun _ => false⟩) (n := n) (fun v => by
      rw [dot_comp, dot_comp, ← Equiv.sum_comp (Equiv.swap i j)]
      refine Finset.sum_congr rfl fun k _ => ?_
      rw [comp_act]
      simp only [Bool.false_eq_true, if_false, Equiv.swap_apply_self]
      by_cases hk : k = i
      · rw [hk, Equiv.swap_apply_left, h]
      · by_cases hk' : k = j
        · rw [hk', Equiv.swap_apply_right, h]
        · rw [Equiv.swap_apply_of_ne_of_ne hk hk']) g (fun v => comp v i)
    have h2 : (fun v : V3 ℝ => comp ((⟨Equiv.swap i j, fun _ => false⟩ : Axes).act v) i) = fun v => comp v j := by
      funext v
      rw [comp_act]
      simp
    rw [h2] at h1
    rw [h1, h]
  · have h1 := dirSum_inv (hsym ⟨Equiv.swap i j, fun k => decide (k = i ∨ k = j)⟩) (n := n) (fun v => by
      rw [dot_comp, dot_comp, ← Equiv.sum_comp (Equiv.swap i j)]
      refine Finset.sum_congr rfl fun k _ => ?_
      rw [comp_act, Equiv.swap_apply_self]
      by_cases hk : k = i
      · rw [hk, Equiv.swap_apply_left, h]
        simp
      · by_cases hk' : k = j
        · rw [hk', Equiv.swap_apply_right, h]
          simp
        · rw [Equiv.swap_apply_of_ne_of_ne hk hk']
          simp [hk, hk']) g (fun v => comp v i)
    have h2 : (fun v : V3 ℝ => comp ((⟨Equiv.swap i j, fun k => decide (k = i ∨ k = j)⟩ : Axes).act v) i) = fun v => (-1) * comp v j := by
      funext v
      rw [comp_act]
      simp
    rw [h2, dirSum_mul] at h1
    rw [h1, h]
    ring

theorem parallel {n m : V3 ℝ} (hn : n ≠ ⟨0, 0, 0⟩) (h : ∀ i j, comp n i * comp m j = comp n j * comp m i) : ∃ c, m = V3.smul c n := by
  have : ∃ i, comp n i ≠ 0 := by
    by_contra hc
    push Not at hc
    exact hn (v3_ext fun i => by rw [hc i]; fin_cases i <;> rfl)
  obtain ⟨i, hi⟩ := this
  refine ⟨comp m i / comp n i, v3_ext fun j => ?_⟩
  have e : comp (V3.smul (comp m i / comp n i) n) j = comp m i / comp n i * comp n j := by fin_cases j <;> rfl
  rw [e]
  have := h i j
  field_simp
  linarith

/-- C88, the normal vector in three dimensions, sharp interfaces: where the dielectric function depends only on the height along `n`, with any
profile, and `n` is along an edge, a face diagonal or a space diagonal of the (Cartesian) cube, the computed normal vector is along `n`, exactly. -/
theorem C88_normal_cube {epsilon : V3 ℝ → HMat × HMat} {R G : M3 ℝ} {n : V3 ℝ} {f : ℝ → ℝ} (h : Layered epsilon R n f) {fl : ℝ → ℝ} {N : V3 ℕ}
    (hN : 1 < N.z) (hd : Dual R G) {mesh : List Entry} (hm : getMomentMesh fl N R G = some mesh) (hn0 : n ≠ ⟨0, 0, 0⟩)
    (hn : ∀ i j, comp n i = 0 ∨ comp n j = 0 ∨ |comp n i| = |comp n j|) (r : V3 ℝ) :
    ∃ c, interfaceNormal epsilon mesh R r = V3.smul c n := by
  obtain ⟨tbl, c, hg, -, hi⟩ := normal_dirSum h hd hm r
  rw [show rankOf N = 3 by rw [rankOf, if_pos hN]] at hg
  refine parallel hn0 fun i j => ?_
  rw [hi, hi]
  linear_combination c * axis_sum hg hn (fun t => f (n.dot (R.mulVec r) + c * t)) i j

/-- A sharp interface along a space diagonal. -/
example : Layered (fun r => (if r.x + r.y + r.z < 1 / 3 then iso 1 else iso 12, hZero)) ⟨⟨1, 0, 0⟩, ⟨0, 1, 0⟩, ⟨0, 0, 1⟩⟩ ⟨1, 1, 1⟩
    (fun t => if t < 1 / 3 then 3 else 36) ∧ ∀ i j : Fin 3, comp (⟨1, 1, 1⟩ : V3 ℝ) i = 0 ∨ comp (⟨1, 1, 1⟩ : V3 ℝ) j = 0 ∨ |comp (⟨1, 1, 1⟩ : V3 ℝ) i| = |comp (⟨1, 1, 1⟩ : V3 ℝ) j| := by
  constructor
  · intro r
    have : (⟨1, 1, 1⟩ : V3 ℝ).dot ((⟨⟨1, 0, 0⟩, ⟨0, 1, 0⟩, ⟨0, 0, 1⟩⟩ : M3 ℝ).mulVec r) = r.x + r.y + r.z := by simp [V3.dot, M3.mulVec]
    rw [this]
    dsimp only
    split_ifs <;> rw [toMatrix_iso] <;> simp [Matrix.trace, Fin.sum_univ_three] <;> norm_num
  · intro i j
    right; right
    fin_cases i <;> fin_cases j <;> simp [comp]

/-- C88, the normal vector in two dimensions, sharp interfaces: where the dielectric function depends only on the height along `n`, with any profile,
and `n` makes a multiple of 15 degrees with the `x` axis, the computed normal vector is along `n`, exactly. -/
theorem C88_normal_plane {epsilon : V3 ℝ → HMat × HMat} {R G : M3 ℝ} {f : ℝ → ℝ} (m : ℕ)
    (h : Layered epsilon R ⟨Real.cos (m * Real.pi / 12), Real.sin (m * Real.pi / 12), 0⟩ f) {fl : ℝ → ℝ} {N : V3 ℕ} (hNz : N.z ≤ 1)
    (hNy : 1 < N.y) (hd : Dual R G) {mesh : List Entry} (hm : getMomentMesh fl N R G = some mesh) (r : V3 ℝ) :
    ∃ c, interfaceNormal epsilon mesh R r = V3.smul c ⟨Real.cos (m * Real.pi / 12), Real.sin (m * Real.pi / 12), 0⟩ := by
  obtain ⟨tbl, c, hg, -, hi⟩ := normal_dirSum h hd hm r
  rw [show rankOf N = 2 by rw [rankOf, if_neg (by omega), if_pos hNy]] at hg
  set C := Real.cos (m * Real.pi / 12) with hC
  set s := Real.sin (m * Real.pi / 12) with hs
  have hcs : C ^ 2 + s ^ 2 = 1 := by rw [hC, hs, Real.cos_sq_add_sin_sq]
  have e2 : 2 * (m : ℝ) * Real.pi / 12 = 2 * (m * Real.pi / 12) := by ring
  have hmir : ∀ v, dihedral m true false v = ⟨(C ^ 2 - s ^ 2) * v.x + 2 * C * s * v.y, 2 * C * s * v.x - (C ^ 2 - s ^ 2) * v.y, v.z⟩ := by
    intro v
    simp only [dihedral, if_true, e2, Real.cos_two_mul, Real.sin_two_mul, ← hC, ← hs, Bool.false_eq_true, if_false]
    have : C ^ 2 - s ^ 2 = 2 * C ^ 2 - 1 := by linarith
    rw [this]
    ext <;> dsimp only <;> ring
  set g := fun t => f ((⟨C, s, 0⟩ : V3 ℝ).dot (R.mulVec r) + c * t)
  have hq : ∀ v, (⟨C, s, 0⟩ : V3 ℝ).dot (dihedral m true false v) = (⟨C, s, 0⟩ : V3 ℝ).dot v := by
    intro v
    rw [hmir]
    simp only [V3.dot]
    linear_combination (C * v.x + s * v.y) * hcs
  have hflip : ∀ v, dihedral 0 false true v = ⟨v.x, v.y, -v.z⟩ := by
    intro v
    simp [dihedral]
  have hx := dirSum_inv (hg.sym _ ⟨m, true, false, rfl⟩) hq g (fun v => comp v 0)
  have hy := dirSum_inv (hg.sym _ ⟨m, true, false, rfl⟩) hq g (fun v => comp v 1)
  have hz := dirSum_inv (hg.sym _ ⟨0, false, true, rfl⟩) (n := ⟨C, s, 0⟩) (fun v => by rw [hflip]; simp [V3.dot]) g (fun v => comp v 2)
  simp only [hmir, hflip] at hx hy hz
  have hx' : dirSum tbl ⟨C, s, 0⟩ g (fun v => comp v 0) = (C ^ 2 - s ^ 2) * dirSum tbl ⟨C, s, 0⟩ g (fun v => comp v 0) + 2 * C * s * dirSum tbl ⟨C, s, 0⟩ g (fun v => comp v 1) := by
    rw [← dirSum_mul, ← dirSum_mul, ← dirSum_add]
    exact hx
  have hy' : dirSum tbl ⟨C, s, 0⟩ g (fun v => comp v 1) = 2 * C * s * dirSum tbl ⟨C, s, 0⟩ g (fun v => comp v 0) + (-(C ^ 2 - s ^ 2)) * dirSum tbl ⟨C, s, 0⟩ g (fun v => comp v 1) := by
    rw [← dirSum_mul, ← dirSum_mul, ← dirSum_add]
    refine hy.trans ?_
    congr 1
    funext v
    simp [comp]
    ring
  have hz' : dirSum tbl ⟨C, s, 0⟩ g (fun v => comp v 2) = (-1) * dirSum tbl ⟨C, s, 0⟩ g (fun v => comp v 2) := by
    rw [← dirSum_mul]
    refine hz.trans ?_
    congr 1
    funext v
    simp [comp]
  have ix := hi 0
  have iy := hi 1
  have iz := hi 2
  change (interfaceNormal epsilon mesh R r).x = c * dirSum tbl ⟨C, s, 0⟩ g (fun v => comp v 0) at ix
  change (interfaceNormal epsilon mesh R r).y = c * dirSum tbl ⟨C, s, 0⟩ g (fun v => comp v 1) at iy
  change (interfaceNormal epsilon mesh R r).z = c * dirSum tbl ⟨C, s, 0⟩ g (fun v => comp v 2) at iz
  generalize dirSum tbl ⟨C, s, 0⟩ g (fun v => comp v 0) = a at *
  generalize dirSum tbl ⟨C, s, 0⟩ g (fun v => comp v 1) = b at *
  generalize dirSum tbl ⟨C, s, 0⟩ g (fun v => comp v 2) = d at *
  refine ⟨c * (C * a + s * b), V3.ext ?_ ?_ ?_⟩
  · rw [ix]
    simp only [V3.smul]
    linear_combination c * (1 / 2) * hx' - c * (1 / 2) * a * hcs
  · rw [iy]
    simp only [V3.smul]
    linear_combination c * (1 / 2) * hy' - c * (1 / 2) * b * hcs
  · rw [iz]
    simp only [V3.smul]
    linear_combination c * (1 / 2) * hz'

/-! ## Smooth profiles along any direction -/

theorem codes_sum_deriv (n b : V3 ℝ) (d : ℕ) (l : List Entry) :
    HasDerivAt (fun t : ℝ => (l.map fun e => e.2 * (n.dot e.1 + t * b.dot e.1) ^ (d + 1)).sum)
      ((d + 1 : ℕ) * (l.map fun e => e.2 * n.dot e.1 ^ d * b.dot e.1).sum) 0 := by
  induction l with
  | nil => simpa using hasDerivAt_const (0 : ℝ) (0 : ℝ)
  | cons e l ih =>
    simp only [List.map_cons, List.sum_cons]
    have h1 : HasDerivAt (fun t : ℝ => n.dot e.1 + t * b.dot e.1) (b.dot e.1) 0 := by
      simpa using ((hasDerivAt_id (0 : ℝ)).mul_const (b.dot e.1)).const_add (n.dot e.1)
    have h2 := (h1.pow (d + 1)).const_mul e.2
    have h3 := h2.add ih
    rw [show (↑(d + 1) : ℝ) * (e.2 * n.dot e.1 ^ d * b.dot e.1 + (l.map fun e => e.2 * n.dot e.1 ^ d * b.dot e.1).sum) =
      e.2 * (↑(d + 1) * (n.dot e.1 + 0 * b.dot e.1) ^ (d + 1 - 1) * b.dot e.1) + ↑(d + 1) * (l.map fun e => e.2 * n.dot e.1 ^ d * b.dot e.1).sum by
        rw [zero_mul, add_zero, Nat.add_sub_cancel]; ring]
    exact h3

theorem even_deriv {F : ℝ → ℝ} {D : ℝ} (h : HasDerivAt F D 0) (he : ∀ t, F (-t) = F t) : D = 0 := by
  have h1 : HasDerivAt (fun t => F (-t)) (D * -1) 0 := by
    have := HasDerivAt.comp (h₂ := F) (h := fun t : ℝ => -t) (h₂' := D) (h' := -1) 0 (by simpa using h) (hasDerivAt_neg (0 : ℝ))
    exact this
  have h2 : (fun t => F (-t)) = F := funext he
  rw [h2] at h1
  have := h1.unique h
  linarith

theorem mixed_moment (n b : V3 ℝ) (hb : n.dot b = 0) (d : ℕ) (hd : d ≤ 10) :
    ((codes.map interp).map fun e => e.2 * n.dot e.1 ^ d * b.dot e.1).sum = 0 := by
  have h := even_deriv (codes_sum_deriv n b d (codes.map interp)) fun t => by
    have e : ∀ (t : ℝ) (v : V3 ℝ), n.dot v + t * b.dot v = (n + V3.smul t b).dot v := by
      intro t v
      simp [V3.dot]; ring
    simp only [e]
    have hlen : (n + V3.smul (-t) b).dot (n + V3.smul (-t) b) = (n + V3.smul t b).dot (n + V3.smul t b) := by
      simp only [V3.dot, V3.add_x, V3.add_y, V3.add_z, V3.smul] at hb ⊢
      linear_combination (-4 * t) * hb
    rcases Nat.even_or_odd' (d + 1) with ⟨k, hk | hk⟩ <;> rw [hk]
    · rw [even_power _ k (by omega), even_power _ k (by omega), hlen]
    · rw [odd_power, odd_power]
  have hne : ((d + 1 : ℕ) : ℝ) ≠ 0 := by positivity
  exact (mul_eq_zero.mp h).resolve_left hne

theorem mixed_poly (n b : V3 ℝ) (hb : n.dot b = 0) (p : Polynomial ℝ) (hp : p.natDegree ≤ 10) : dirSum (codes.map interp) n (fun t => p.eval t) (fun v => b.dot v) = 0 := by
  unfold dirSum
  have key : ∀ k ≤ 11, ((codes.map interp).map fun e => e.2 * (∑ i ∈ Finset.range k, p.coeff i * n.dot e.1 ^ i) * b.dot e.1).sum = 0 := by
    intro k
    induction k with
    | zero => intro _; simp [Function.comp_def]
    | succ k ih =>
      intro hk
      have e : (fun e : Entry => e.2 * (∑ i ∈ Finset.range (k + 1), p.coeff i * n.dot e.1 ^ i) * b.dot e.1) =
          fun e : Entry => e.2 * (∑ i ∈ Finset.range k, p.coeff i * n.dot e.1 ^ i) * b.dot e.1 + p.coeff k * (e.2 * n.dot e.1 ^ k * b.dot e.1) := by
        funext e
        rw [Finset.sum_range_succ]; ring
      rw [e, List.sum_map_add, ih (by omega), List.sum_map_mul_left, mixed_moment n b hb k (by omega)]
      ring
  have := key 11 (le_refl _)
  simp only [← Polynomial.eval_eq_sum_range' (show p.natDegree < 11 by omega)] at this
  exact this

/-- C88, the normal vector in three dimensions, smooth interfaces: where the dielectric function depends only on the height along `n`, as a polynomial
of degree at most 10, the computed normal vector is along `n`, exactly, for every direction `n` and every lattice. -/
theorem C88_normal_smooth {epsilon : V3 ℝ → HMat × HMat} {R G : M3 ℝ} {n : V3 ℝ} {p : Polynomial ℝ} (h : Layered epsilon R n fun t => p.eval t)
    (hp : p.natDegree ≤ 10) {fl : ℝ → ℝ} {N : V3 ℕ} (hN : 1 < N.z) (hd : Dual R G) {mesh : List Entry} (hm : getMomentMesh fl N R G = some mesh)
    (hn0 : n ≠ ⟨0, 0, 0⟩) (r : V3 ℝ) : ∃ c, interfaceNormal epsilon mesh R r = V3.smul c n := by
  obtain ⟨tbl, c, -, ht, hi⟩ := normal_dirSum h hd hm r
  rw [show rankOf N = 3 by rw [rankOf, if_pos hN]] at ht
  simp only [sphereQuad, quadrature_codes, Option.map_some, Option.some.injEq] at ht
  subst ht
  set q : Polynomial ℝ := p.comp (Polynomial.C (n.dot (R.mulVec r)) + Polynomial.C c * Polynomial.X) with hq
  have hqd : q.natDegree ≤ 10 := by
    rw [hq]
    refine le_trans Polynomial.natDegree_comp_le ?_
    have : (Polynomial.C (n.dot (R.mulVec r)) + Polynomial.C c * Polynomial.X).natDegree ≤ 1 := by
      rw [add_comm]
      exact Polynomial.natDegree_linear_le
    calc p.natDegree * _ ≤ p.natDegree * 1 := Nat.mul_le_mul_left _ this
      _ ≤ 10 := by omega
  have hqe : (fun t => p.eval (n.dot (R.mulVec r) + c * t)) = fun t => q.eval t := by
    funext t
    rw [hq, Polynomial.eval_comp]
    simp
  have hsum : ∀ i, comp (interfaceNormal epsilon (mesh) R r) i = c * dirSum (codes.map interp) n (fun t => q.eval t) fun v => comp v i := by
    intro i
    rw [hi, hqe]
    unfold dirSum
    rw [((sorted_perm fl _).map _).sum_eq]
  set m := interfaceNormal epsilon mesh R r
  have horth : ∀ b : V3 ℝ, n.dot b = 0 → b.dot m = 0 := by
    intro b hb
    have := mixed_poly n b hb q hqd
    have e : (fun v : V3 ℝ => b.dot v) = fun v => (b.x * comp v 0 + b.y * comp v 1) + b.z * comp v 2 := rfl
    rw [e, dirSum_add, dirSum_add, dirSum_mul, dirSum_mul, dirSum_mul] at this
    have i0 := hsum 0
    have i1 := hsum 1
    have i2 := hsum 2
    simp only [V3.dot]
    change m.x = _ at i0
    change m.y = _ at i1
    change m.z = _ at i2
    rw [i0, i1, i2]
    linear_combination c * this
  refine parallel hn0 fun i j => ?_
  -- the part of `m` across `n` vanishes
  have hnn : 0 < n.dot n := by
    by_contra hc
    apply hn0
    simp only [V3.dot] at hc
    ext
    · dsimp only; nlinarith [mul_self_nonneg n.x, mul_self_nonneg n.y, mul_self_nonneg n.z]
    · dsimp only; nlinarith [mul_self_nonneg n.x, mul_self_nonneg n.y, mul_self_nonneg n.z]
    · dsimp only; nlinarith [mul_self_nonneg n.x, mul_self_nonneg n.y, mul_self_nonneg n.z]
  set k := n.dot m / n.dot n with hk
  set b : V3 ℝ := m - V3.smul k n with hb
  have hb0 : n.dot b = 0 := by
    have : n.dot b = n.dot m - k * n.dot n := by rw [hb]; simp [V3.dot]; ring
    rw [this, hk, div_mul_cancel₀ _ hnn.ne', sub_self]
  have hbb : b.dot b = 0 := by
    have h1 := horth b hb0
    have : b.dot b = b.dot m - k * n.dot b := by
      rw [hb]; simp [V3.dot]; ring
    rw [this, h1, hb0]; ring
  simp only [V3.dot] at hbb
  have bx : b.x = 0 := by nlinarith [mul_self_nonneg b.x, mul_self_nonneg b.y, mul_self_nonneg b.z]
  have by' : b.y = 0 := by nlinarith [mul_self_nonneg b.x, mul_self_nonneg b.y, mul_self_nonneg b.z]
  have bz : b.z = 0 := by nlinarith [mul_self_nonneg b.x, mul_self_nonneg b.y, mul_self_nonneg b.z]
  have hm' : ∀ i, comp m i = k * comp n i := by
    intro i
    fin_cases i
    · have : b.x = m.x - k * n.x := rfl
      change m.x = k * n.x
      linarith
    · have : b.y = m.y - k * n.y := rfl
      change m.y = k * n.y
      linarith
    · have : b.z = m.z - k * n.z := rfl
      change m.z = k * n.z
      linarith
  rw [hm', hm']
  ring

end Mpb.Moment

import Verif.Moment.Cov2
import Mathlib.Analysis.SpecialFunctions.Integrals.Basic
import Mathlib.Analysis.Calculus.Deriv.Pow
import Mathlib.Analysis.Calculus.Deriv.Add
import Mathlib.Analysis.Calculus.Deriv.Mul

/-!
# C88: the discretised dielectric function keeps the symmetry of the structure
-/

namespace Mpb.Moment
open Mpb.Tensor Mpb.Tensor.Spec Matrix

/-! ## The moment mesh -/

/-- C88, the moment mesh: for every grid and every lattice the checks of `get_moment_mesh` pass; in Cartesian coordinates (`R` applied to the
offsets) the points lie on one sphere about the centre, with its radius positive for a grid with a lattice vector that is not zero; the weights add up to one,
the mesh is symmetric about the centre and has every symmetry that a mesh for its dimension can have.  `fl` is the rounding of the stored
distances (it fixes the order of the points only). -/
theorem C88_mesh (fl : ℝ → ℝ) (n : V3 ℕ) (R G : M3 ℝ) (hd : Dual R G) :
    ∃ mesh, getMomentMesh fl n R G = some mesh ∧ (mesh.map Prod.snd).sum = 1 ∧
      (∀ e ∈ mesh, len2 (R.mulVec e.1) = (meshR (rankOf n) * maxDiam (rankOf n) n R) ^ 2) ∧
      Invariant (fun v => -v) (mesh.map fun e => (R.mulVec e.1, e.2)) ∧
      ∀ Q : Matrix (Fin 3) (Fin 3) ℝ, MeshSym (rankOf n) (app Q) → Invariant (app Q) (mesh.map fun e => (R.mulVec e.1, e.2)) := by
  obtain ⟨tbl, hg, -, hm⟩ := getMomentMesh_eq fl n R G
  have hR : ∀ v, R.mulVec (offset n R G v) = V3.smul (meshR (rankOf n) * maxDiam (rankOf n) n R) v := fun v => hd _
  have hmap : ((tbl.map fun e => (offset n R G e.1, e.2)).map fun e : Entry => (R.mulVec e.1, e.2)) =
      tbl.map fun e => (V3.smul (meshR (rankOf n) * maxDiam (rankOf n) n R) e.1, e.2) := by
    rw [List.map_map]
    exact List.map_congr_left fun e _ => by simp only [Function.comp_apply, hR]
  have hinv : ∀ f : V3 ℝ → V3 ℝ, (∀ c v, f (V3.smul c v) = V3.smul c (f v)) → Invariant f tbl →
      Invariant f (tbl.map fun e => (V3.smul (meshR (rankOf n) * maxDiam (rankOf n) n R) e.1, e.2)) := by
    intro f hf h
    unfold Invariant
    have := List.Perm.map (fun e : Entry => ((V3.smul (meshR (rankOf n) * maxDiam (rankOf n) n R) e.1, e.2) : Entry)) h
    rw [List.map_map] at this ⊢
    refine List.Perm.trans (List.Perm.of_eq (List.map_congr_left fun e _ => ?_)) this
    simp only [Function.comp_apply, hf]
  refine ⟨_, hm, ?_, ?_, ?_, ?_⟩
  · rw [List.map_map]
    exact hg.weights
  · intro e he
    obtain ⟨e, he', rfl⟩ := List.mem_map.mp he
    dsimp only
    rw [hR]
    have := hg.unit e he'
    simp only [len2, V3.dot, V3.smul] at this ⊢
    linear_combination (meshR (rankOf n) * maxDiam (rankOf n) n R) ^ 2 * this
  · rw [hmap]
    exact hinv _ (fun c v => by ext <;> simp) hg.inv
  · intro Q hQ
    rw [hmap]
    exact hinv _ (fun c v => by ext <;> simp [app] <;> ring) (hg.sym _ hQ)

/-- C88, the size of the mesh: up to the rounding of the constants in the source (one part in 10¹⁵), the sphere is the one through the corners of a square
box as wide as the greatest distance of neighbouring grid points in the directions of the grid: its radius is half the diagonal. -/
theorem C88_radius (fl : ℝ → ℝ) (n : V3 ℕ) (R G : M3 ℝ) (hd : Dual R G) :
    ∃ mesh h, getMomentMesh fl n R G = some mesh ∧ IsGreatest {s | ∃ i : Fin 3, (i : ℕ) < dimension n ∧ s = spacing n R i} h ∧
      ∀ e ∈ mesh, |len2 (R.mulVec e.1) - dimension n / 4 * h ^ 2| ≤ 1 / 10 ^ 15 * h ^ 2 := by
  obtain ⟨mesh, hm, -, hr, -⟩ := C88_mesh fl n R G hd
  have hdim : rankOf n = dimension n := rfl
  have hnn : ∀ i, 0 ≤ spacing n R i := fun i => by unfold spacing; positivity
  have hmax : IsGreatest {s | ∃ i : Fin 3, (i : ℕ) < dimension n ∧ s = spacing n R i} (maxDiam (rankOf n) n R) := by
    have e0 : Real.sqrt (R.c0.x * R.c0.x + R.c0.y * R.c0.y + R.c0.z * R.c0.z) / n.x = spacing n R 0 := rfl
    have e1 : Real.sqrt (R.c1.x * R.c1.x + R.c1.y * R.c1.y + R.c1.z * R.c1.z) / n.y = spacing n R 1 := rfl
    have e2 : Real.sqrt (R.c2.x * R.c2.x + R.c2.y * R.c2.y + R.c2.z * R.c2.z) / n.z = spacing n R 2 := rfl
    unfold maxDiam
    simp only [e0, e1, e2]
    rw [hdim]
    unfold dimension
    split_ifs
    · simp only [List.take, List.foldl, max_eq_right (hnn 0)]
      constructor
      · rcases max_choice (max (spacing n R 0) (spacing n R 1)) (spacing n R 2) with h | h
        · rcases max_choice (spacing n R 0) (spacing n R 1) with h' | h'
          · exact ⟨0, by norm_num, h.trans h'⟩
          · exact ⟨1, by norm_num, h.trans h'⟩
        · exact ⟨2, by norm_num, h⟩
      · rintro s ⟨i, -, rfl⟩
        fin_cases i <;> simp
    · simp only [List.take, List.foldl, max_eq_right (hnn 0)]
      constructor
      · rcases max_choice (spacing n R 0) (spacing n R 1) with h' | h'
        · exact ⟨0, by norm_num, h'⟩
        · exact ⟨1, by norm_num, h'⟩
      · rintro s ⟨i, hi, rfl⟩
        fin_cases i <;> simp at hi ⊢
    · simp only [List.take, List.foldl, max_eq_right (hnn 0)]
      constructor
      · exact ⟨0, by norm_num, rfl⟩
      · rintro s ⟨i, hi, rfl⟩
        fin_cases i <;> simp at hi ⊢
  refine ⟨mesh, _, hm, hmax, fun e he => ?_⟩
  rw [hr e he]
  have hs := sq_nonneg (maxDiam (rankOf n) n R)
  generalize maxDiam (rankOf n) n R = h at hs
  rw [hdim]
  have : (meshR (dimension n) * h) ^ 2 - (dimension n : ℝ) / 4 * h ^ 2 = (meshR (dimension n) ^ 2 - (dimension n : ℝ) / 4) * h ^ 2 := by ring
  rw [this, abs_mul, abs_of_nonneg hs]
  refine mul_le_mul_of_nonneg_right ?_ hs
  rw [abs_le]
  unfold dimension meshR
  split_ifs <;> norm_num at * 

/-- The grid of an example: the 48 symmetries of the cube, for any grid in three dimensions. -/
example (n : V3 ℕ) (h : 1 < n.z) (T : Axes) (Q : Matrix (Fin 3) (Fin 3) ℝ) (hQ : ∀ v, app Q v = T.act v) : MeshSym (rankOf n) (app Q) := by
  rw [rankOf, if_pos h]
  exact ⟨T, funext hQ⟩

/-- The identity lattice. -/
example : Dual ⟨⟨1, 0, 0⟩, ⟨0, 1, 0⟩, ⟨0, 0, 1⟩⟩ ⟨⟨1, 0, 0⟩, ⟨0, 1, 0⟩, ⟨0, 0, 1⟩⟩ := by
  intro v
  ext <;> simp [M3.mulVec, V3.dot]

/-! ## Exactness -/

/-- C88, exactness in three dimensions: the weighted sum of the `d`-th power of any linear form over the table of directions is the mean of that
power over the sphere, for every `d ≤ 11` (so for every polynomial of degree at most 11: these are sums of powers of linear forms).  The mean over
the sphere of a function of the height above a plane is its mean over the heights (Archimedes). -/
theorem C88_exact (fl : ℝ → ℝ) (a : V3 ℝ) (d : ℕ) (hd : d ≤ 11) :
    ∃ tbl, sphereQuad fl 3 = some tbl ∧
      (tbl.map fun e => e.2 * (a.dot e.1) ^ d).sum = 1 / 2 * ∫ t in (-1 : ℝ)..1, (Real.sqrt (len2 a) * t) ^ d := by
  refine ⟨sorted fl (codes.map interp), by simp only [sphereQuad, quadrature_codes, Option.map_some], ?_⟩
  have hint : (∫ t in (-1 : ℝ)..1, (Real.sqrt (len2 a) * t) ^ d) = Real.sqrt (len2 a) ^ d * ((1 - (-1) ^ (d + 1)) / (d + 1)) := by
    simp only [mul_pow]
    rw [intervalIntegral.integral_const_mul, integral_pow, one_pow]
  rw [((sorted_perm fl _).map _).sum_eq, hint]
  have h0 : 0 ≤ len2 a := by
    unfold len2 V3.dot
    nlinarith [mul_self_nonneg a.x, mul_self_nonneg a.y, mul_self_nonneg a.z]
  rcases Nat.even_or_odd' d with ⟨e, rfl | rfl⟩
  · rw [even_power a e (by omega), pow_mul (Real.sqrt _), Real.sq_sqrt h0, Odd.neg_one_pow ⟨e, rfl⟩]
    unfold len2
    push_cast
    ring
  · rw [odd_power, show 2 * e + 1 + 1 = 2 * (e + 1) by ring, Even.neg_one_pow ⟨e + 1, by ring⟩]
    simp

/-! ## Symmetry of the stored tensors -/

theorem dual_left {R G : M3 ℝ} (h : Dual R G) (u : V3 ℝ) : (⟨G.c0.dot (R.mulVec u), G.c1.dot (R.mulVec u), G.c2.dot (R.mulVec u)⟩ : V3 ℝ) = u := by
  have hm : rows R * (rows G)ᵀ = 1 := by
    have hx := h ⟨1, 0, 0⟩
    have hy := h ⟨0, 1, 0⟩
    have hz := h ⟨0, 0, 1⟩
    simp only [M3.mulVec, V3.dot, V3.mk.injEq, mul_one, mul_zero, add_zero, zero_add] at hx hy hz
    ext i j
    rw [Matrix.mul_apply, Fin.sum_univ_three]
    simp only [Matrix.transpose_apply]
    fin_cases j
    · fin_cases i
      exacts [hx.1, hx.2.1, hx.2.2]
    · fin_cases i
      exacts [hy.1, hy.2.1, hy.2.2]
    · fin_cases i
      exacts [hz.1, hz.2.1, hz.2.2]
  have hm' : (rows G)ᵀ * rows R = 1 := mul_eq_one_comm.mp hm
  have e : ∀ i j, ((rows G)ᵀ * rows R) i j = (1 : Mat3) i j := fun i j => by rw [hm']
  simp only [Matrix.mul_apply, Fin.sum_univ_three, Matrix.transpose_apply] at e
  have e00 := e 0 0
  have e01 := e 0 1
  have e02 := e 0 2
  have e10 := e 1 0
  have e11 := e 1 1
  have e12 := e 1 2
  have e20 := e 2 0
  have e21 := e 2 1
  have e22 := e 2 2
  simp [rows, Matrix.one_apply] at e00 e01 e02 e10 e11 e12 e20 e21 e22
  ext <;> simp only [M3.mulVec, V3.dot]
  · linear_combination u.x * e00 + u.y * e01 + u.z * e02
  · linear_combination u.x * e10 + u.y * e11 + u.z * e12
  · linear_combination u.x * e20 + u.y * e21 + u.z * e22

theorem moment_invariant {fl : ℝ → ℝ} {n : V3 ℕ} {R G : M3 ℝ} (hd : Dual R G) {mesh : List Entry} (hm : getMomentMesh fl n R G = some mesh) {S : Axes}
    {Q : Mat3} (hl : ∀ v, R.mulVec (S.act v) = app Q (R.mulVec v)) (hQ : MeshSym (rankOf n) (app Q)) : Invariant S.act mesh := by
  obtain ⟨mesh', h1, -, -, -, h2⟩ := C88_mesh fl n R G hd
  rw [h1] at hm
  cases hm
  have h3 := List.Perm.map (fun e : Entry => ((⟨G.c0.dot e.1, G.c1.dot e.1, G.c2.dot e.1⟩, e.2) : Entry)) (h2 Q hQ)
  rw [List.map_map, List.map_map, List.map_map] at h3
  refine List.Perm.trans (List.Perm.of_eq (List.map_congr_left fun e _ => ?_)) (h3.trans (List.Perm.of_eq ?_))
  · simp only [Function.comp_apply]
    rw [← hl, dual_left hd]
  · conv_rhs => rw [← List.map_id mesh]
    refine List.map_congr_left fun e _ => ?_
    simp only [Function.comp_apply, dual_left hd, id]

/-- The address of a grid point in the arrays of tensors. -/
def address (md : MData) (g : V3 ℕ) : ℕ := (g.x * md.ny + g.y) * md.nz + g.z

/-- C88: the discretised dielectric function has every symmetry of the structure that maps the grid to itself.  Let the structure, with the
analytic averages where there are any, be periodic and symmetric under a space group operation (a signed permutation of the lattice directions,
followed by a translation by any number of grid steps: mirror planes, rotations, screw axes and glide planes), in Cartesian coordinates an
orthogonal map that the moment mesh has.  Then the stored inverse tensors at a grid point and at its image are related by the operation,
however they were obtained (from the centre, an analytic average, the Kottke average along the computed normal or the plain average): for all
grids, lattices, media, meshes, in one, two and three dimensions. -/
theorem C88_symmetric {md md' : MData} {a : DielArgs} {o : Op} (h : setDielectric md a = .ok md') {fl : ℝ → ℝ} {G : M3 ℝ} (hd : Dual a.Rl G)
    (hm : getMomentMesh fl (sizes md) a.Rl G = some a.moment) (hs : Symmetric md a o) {g g' : V3 ℕ} (hg : ∀ i, comp g i < comp (sizes md) i)
    (hg' : ∀ i, comp g' i < comp (sizes md) i) (hi : o.Image (sizes md) g g') :
    Turned o.Q (md'.heap md'.epsInv (address md g)) (md'.heap md'.epsInv (address md g')) := by
  obtain ⟨f, hf, -, -, -, -, -, -, e4, -⟩ := setDielectric_ok h
  obtain ⟨z, hz⟩ := hi
  obtain ⟨h1, h2⟩ := hf g.x g.y g.z (hg 0) (hg 1) (hg 2)
  obtain ⟨h1', h2'⟩ := hf g'.x g'.y g'.z (hg' 0) (hg' 1) (hg' 2)
  unfold address
  rw [e4, h2, h2']
  set tt : V3 ℝ := ⟨o.t.x / md.nx, o.t.y / md.ny, o.t.z / md.nz⟩ + latticeVec z with htt
  have hshift : ∀ r, o.S.act r + tt = o.map (sizes md) r + latticeVec z := by
    intro r
    rw [htt]
    unfold Op.map sizes
    ext <;> simp <;> ring
  have hpos : (⟨g'.x * (1 / md.nx), g'.y * (1 / md.ny), g'.z * (1 / md.nz)⟩ : V3 ℝ) =
      o.S.act (⟨g.x * (1 / md.nx), g.y * (1 / md.ny), g.z * (1 / md.nz)⟩ : V3 ℝ) + tt := by
    refine v3_ext fun i => ?_
    have c1 : ∀ (g : V3 ℕ) i, comp (⟨g.x * (1 / md.nx), g.y * (1 / md.ny), g.z * (1 / md.nz)⟩ : V3 ℝ) i = ((comp g i : ℕ) : ℝ) * (1 / ((comp (sizes md) i : ℕ) : ℝ)) := by
      intro g i
      fin_cases i <;> rfl
    have c2 : comp tt i = (((comp o.t i : ℤ) : ℤ) : ℝ) / ((comp (sizes md) i : ℕ) : ℝ) + (((comp z i : ℤ) : ℤ) : ℝ) := by
      rw [htt]
      fin_cases i <;> rfl
    have c3 : o.S.get (⟨g.x, g.y, g.z⟩ : V3 ℤ) i = if o.S.neg i then -((comp g (o.S.σ i) : ℕ) : ℤ) else ((comp g (o.S.σ i) : ℕ) : ℤ) := by
      have : ∀ j, comp (⟨g.x, g.y, g.z⟩ : V3 ℤ) j = ((comp g j : ℕ) : ℤ) := by
        intro j
        fin_cases j <;> rfl
      unfold Axes.get
      rw [this]
    have hn : ((comp (sizes md) i : ℕ) : ℝ) ≠ 0 := by
      have := hg i
      have : comp (sizes md) i ≠ 0 := by omega
      exact_mod_cast this
    have hzi := hz i
    rw [c3] at hzi
    have hzr : ((comp g' i : ℕ) : ℝ) = (if o.S.neg i then -((comp g (o.S.σ i) : ℕ) : ℝ) else ((comp g (o.S.σ i) : ℕ) : ℝ)) + (((comp o.t i : ℤ) : ℤ) : ℝ) + (((comp z i : ℤ) : ℤ) : ℝ) * ((comp (sizes md) i : ℕ) : ℝ) := by
      have := congrArg (fun m : ℤ => (m : ℝ)) hzi
      push_cast at this
      rw [this]
    rw [c1, comp_add, comp_act, c1, c2, hs.grid, hzr]
    split_ifs <;> field_simp <;> ring
  have hdim : (if md.nz > 1 then 3 else if md.ny > 1 then 2 else 1) = dim md := rfl
  rw [hdim] at h1 h1'
  rw [hpos] at h1'
  have hinv1 : dim md = 1 → o.S.inv.σ 0 = 0 := fun h => by
    have := hs.flat.1 h
    simp only [Axes.inv]
    rw [Equiv.symm_apply_eq, this]
  have hinv2 : dim md = 2 → o.S.inv.σ 2 = 2 := fun h => by
    have := hs.flat.2 h
    simp only [Axes.inv]
    rw [Equiv.symm_apply_eq, this]
  have hS : Sym (dim md) ⟨1 / md.nx, 1 / md.ny, 1 / md.nz⟩ a o.S tt o.Q :=
    { orth := hs.orth
      lattice := hs.lattice
      sides := by
        have c : ∀ i, comp (⟨1 / md.nx, 1 / md.ny, 1 / md.nz⟩ : V3 ℝ) i = 1 / ((comp (sizes md) i : ℕ) : ℝ) := by
          intro i
          fin_cases i <;> rfl
        intro i
        rw [c, c, hs.grid]
      mesh := hs.mesh
      dimOk := by unfold dim; split_ifs <;> omega
      corner := fun c hc => isCorner_act hs.flat.1 hs.flat.2 hc
      corner' := fun c hc => isCorner_act hinv1 hinv2 hc
      moment := moment_invariant hd hm hs.lattice hs.moment
      axes := hs.axes
      eps := fun r => by rw [hshift, hs.periodic]; exact hs.eps r
      epsInv := fun r => by rw [hshift, hs.periodic]; exact hs.epsInv r
      meps := fun f hf r => by rw [hshift, hs.mperiodic f hf]; exact hs.meps f hf r }
  exact hS.voxel _ h1 h1'

/-! ## A concrete case -/

/-- A cubic crystal with a fourfold screw axis. -/
noncomputable def crystal (r : V3 ℝ) : ℝ := 4 + Real.cos (2 * Real.pi * r.x) + Real.cos (2 * Real.pi * r.y) + Real.cos (4 * Real.pi * r.z)

theorem crystal_pos (r : V3 ℝ) : 0 < crystal r := by
  unfold crystal
  linarith [Real.neg_one_le_cos (2 * Real.pi * r.x), Real.neg_one_le_cos (2 * Real.pi * r.y), Real.neg_one_le_cos (4 * Real.pi * r.z)]

theorem crystal_periodic (r : V3 ℝ) (z : V3 ℤ) : crystal (r + latticeVec z) = crystal r := by
  unfold crystal latticeVec
  simp only [V3.add_x, V3.add_y, V3.add_z]
  rw [show 2 * Real.pi * (r.x + z.x) = 2 * Real.pi * r.x + z.x * (2 * Real.pi) by ring,
    show 2 * Real.pi * (r.y + z.y) = 2 * Real.pi * r.y + z.y * (2 * Real.pi) by ring,
    show 4 * Real.pi * (r.z + z.z) = 4 * Real.pi * r.z + ((2 * z.z : ℤ) : ℝ) * (2 * Real.pi) by push_cast; ring,
    Real.cos_add_int_mul_two_pi, Real.cos_add_int_mul_two_pi, Real.cos_add_int_mul_two_pi]

/-- `(x, y, z) ↦ (-y, x, z + 1/2)` on a grid of `8 × 8 × 4` points. -/
def screw : Op := ⟨⟨Equiv.swap 0 1, fun i => i = 0⟩, ⟨0, 0, 2⟩, !![0, -1, 0; 1, 0, 0; 0, 0, 1]⟩

def grid884 : MData := ⟨8, 8, 4, fun _ _ => hZero, 1, 0, 0, none, 0⟩

noncomputable def crystalArgs (moment : List Entry) : DielArgs :=
  ⟨⟨3, 3, 5⟩, ⟨⟨1, 0, 0⟩, ⟨0, 1, 0⟩, ⟨0, 0, 1⟩⟩, moment, fun r => (iso (crystal r), iso (1 / crystal r)), none⟩

theorem screw_act (v : V3 ℝ) : screw.S.act v = ⟨-v.y, v.x, v.z⟩ := by
  have h2 : Equiv.swap (0 : Fin 3) 1 2 = 2 := by decide
  simp [screw, Axes.act, Axes.get, comp, h2]

theorem turned_iso_self {Q : Mat3} (h : Qᵀ * Q = 1) (e : ℝ) : Turned Q (iso e) (iso e) := by
  unfold Turned
  rw [toMatrix_iso, Matrix.mul_smul, Matrix.mul_one, Matrix.smul_mul, cm_orth h]

theorem crystal_symmetric (moment : List Entry) : Symmetric grid884 (crystalArgs moment) screw := by
  have hQ : screw.Qᵀ * screw.Q = 1 := by
    ext i j
    fin_cases i <;> fin_cases j <;> simp [screw, Matrix.mul_apply, Fin.sum_univ_three]
  have happ : ∀ v, app screw.Q v = screw.S.act v := by
    intro v
    rw [screw_act]
    ext <;> simp [app, screw]
  have hid : ∀ v : V3 ℝ, (⟨⟨1, 0, 0⟩, ⟨0, 1, 0⟩, ⟨0, 0, 1⟩⟩ : M3 ℝ).mulVec v = v := by
    intro v
    ext <;> simp [M3.mulVec]
  have hc : ∀ r, crystal (screw.map (sizes grid884) r) = crystal r := by
    intro r
    unfold Op.map
    rw [screw_act]
    unfold crystal
    simp only [V3.add_x, V3.add_y, V3.add_z, screw, sizes, grid884]
    rw [show 4 * Real.pi * (r.z + ((2 : ℤ) : ℝ) / ((4 : ℕ) : ℝ)) = 4 * Real.pi * r.z + 2 * Real.pi by push_cast; ring, Real.cos_add_two_pi,
      show 2 * Real.pi * (-r.y + ((0 : ℤ) : ℝ) / ((8 : ℕ) : ℝ)) = -(2 * Real.pi * r.y) by push_cast; ring, Real.cos_neg,
      show 2 * Real.pi * (r.x + ((0 : ℤ) : ℝ) / ((8 : ℕ) : ℝ)) = 2 * Real.pi * r.x by push_cast; ring]
    ring
  refine ⟨hQ, fun v => ?_, ?_, ?_, ?_, ?_, Or.inl ⟨screw.S, happ⟩, fun r z => ?_, fun r => ?_, fun r => ?_, fun f hf => ?_, fun f hf => ?_⟩
  · simp only [crystalArgs]
    rw [hid, hid, happ]
  · decide
  · simp only [crystalArgs]
    decide
  · exact ⟨fun h => absurd h (by decide), fun h => absurd h (by decide)⟩
  · show ∃ S : Axes, _
    exact ⟨screw.S, funext happ⟩
  · simp only [crystalArgs, crystal_periodic]
  · simp only [crystalArgs, hc]
    exact turned_iso_self hQ _
  · simp only [crystalArgs, hc]
    exact turned_iso_self hQ _
  · cases hf
  · cases hf

/-- The hypotheses of `C88_symmetric` are met: the grid point `(1, 2, 3)` and its image `(6, 1, 1)`. -/
example : ∃ moment md', getMomentMesh id (sizes grid884) (crystalArgs moment).Rl (crystalArgs moment).Rl = some (crystalArgs moment).moment ∧
    setDielectric grid884 (crystalArgs moment) = .ok md' ∧ Symmetric grid884 (crystalArgs moment) screw ∧ Dual (crystalArgs moment).Rl (crystalArgs moment).Rl ∧
    screw.Image (sizes grid884) ⟨1, 2, 3⟩ ⟨6, 1, 1⟩ ∧
    Turned screw.Q (md'.heap md'.epsInv (address grid884 ⟨1, 2, 3⟩)) (md'.heap md'.epsInv (address grid884 ⟨6, 1, 1⟩)) := by
  have hdual : Dual ⟨⟨1, 0, 0⟩, ⟨0, 1, 0⟩, ⟨0, 0, 1⟩⟩ ⟨⟨1, 0, 0⟩, ⟨0, 1, 0⟩, ⟨0, 0, 1⟩⟩ := by
    intro v
    ext <;> simp [M3.mulVec, V3.dot]
  obtain ⟨moment, hm, -⟩ := C88_mesh id (sizes grid884) ⟨⟨1, 0, 0⟩, ⟨0, 1, 0⟩, ⟨0, 0, 1⟩⟩ ⟨⟨1, 0, 0⟩, ⟨0, 1, 0⟩, ⟨0, 0, 1⟩⟩ hdual
  have hpd : ∀ e : ℝ, 0 < e → PosDef (iso e) := by
    intro e he
    rw [posDef_iff_quad]
    intro x y z h
    simp only [quad, iso]
    have h1 := nsq_nonneg x
    have h2 := nsq_nonneg y
    have h3 := nsq_nonneg z
    have h4 : 0 < nsq x + nsq y + nsq z := by
      rcases h with h | h | h <;> have := nsq_pos h <;> linarith
    have : 0 < e * (nsq x + nsq y + nsq z) := mul_pos he h4
    simp
    linarith
  have hphys : Spec.Physical (crystalArgs moment) := by
    refine ⟨fun q => ⟨hpd _ (crystal_pos q), ?_⟩, fun f hf => by cases hf⟩
    simp only [crystalArgs, toMatrix_iso]
    rw [Matrix.smul_mul, Matrix.one_mul, smul_smul, ← Complex.ofReal_mul, mul_one_div_cancel (crystal_pos q).ne', Complex.ofReal_one, one_smul]
  obtain ⟨md', h, -⟩ := C61_positive grid884 (crystalArgs moment) hphys (by norm_num [crystalArgs]) (by norm_num [crystalArgs]) (by norm_num [crystalArgs])
  have hi : screw.Image (sizes grid884) ⟨1, 2, 3⟩ ⟨6, 1, 1⟩ := ⟨⟨1, 0, -1⟩, by decide⟩
  exact ⟨moment, md', hm, h, crystal_symmetric moment, hdual, hi,
    C88_symmetric h hdual hm (crystal_symmetric moment) (by decide) (by decide) hi⟩

theorem rotM_avg (f : ℝ) (a b : HMat) (W : Mat3) : rotM (avg f a b) W = avg f (rotM a W) (rotM b W) := by
  rw [avg_eq, avg_eq, rotM_hAdd, rotM_hScale, rotM_hScale]

/-- The average of two media in a frame. -/
noncomputable def frameMean2 (U : Mat3) (f : ℝ) (e1 e2 : HMat) : HMat := rotM (untau (avg f (tau (rotM e1 U)) (tau (rotM e2 U)))) Uᵀ

theorem frameMean2_indep {U U' : Mat3} (hU : Uᵀ * U = 1) (hU' : U'ᵀ * U' = 1) {s : ℝ} (hs : s = 1 ∨ s = -1) (hc : ∀ i, U' i 0 = s * U i 0)
    (f : ℝ) (e1 e2 : HMat) : frameMean2 U' f e1 e2 = frameMean2 U f e1 e2 := by
  have hb := block_of_frames hU hU' hs hc
  have hUU : U * Uᵀ = 1 := mul_eq_one_comm.mp hU
  have hUU' : U' * U'ᵀ = 1 := mul_eq_one_comm.mp hU'
  have hV : U * (Uᵀ * U') = U' := by rw [← Matrix.mul_assoc, hUU, Matrix.one_mul]
  have h1 : ∀ e, tau (rotM e U') = rotM (tau (rotM e U)) (Uᵀ * U') := fun e => by rw [← tau_block _ _ hb, rotM_mul, hV]
  unfold frameMean2
  rw [h1, h1, ← rotM_avg, untau_block _ _ hb, rotM_mul, Matrix.mul_assoc, hUU', Matrix.mul_one]

/-- C88, the analytic average of two media: turning both media and the normal vector turns the average, and the sense of the normal vector does
not matter. -/
theorem C88_two_media {Q : Matrix (Fin 3) (Fin 3) ℝ} (hQ : Qᵀ * Q = 1) (fill : ℝ) (n : V3 ℝ) {e1 e1' e2 e2' : HMat} (h1 : Turned Q e1 e1')
    (h2 : Turned Q e2 e2') : Option.Rel (Turned Q) (kottke fill n e1 e2) (kottke fill (app Q n) e1' e2') ∧ kottke fill (-n) e1 e2 = kottke fill n e1 e2 := by
  classical
  have hlen : (-n).x * (-n).x + (-n).y * (-n).y + (-n).z * (-n).z = n.x * n.x + n.y * n.y + n.z * n.z := by
    simp only [V3.neg_x, V3.neg_y, V3.neg_z]; ring
  unfold kottke
  dsimp only
  rw [len_app hQ, hlen]
  by_cases h0 : Real.sqrt (n.x * n.x + n.y * n.y + n.z * n.z) = 0
  · simp only [if_pos h0]
    exact ⟨Option.Rel.none, trivial⟩
  simp only [if_neg h0, hRotate_eq, rows_swapRot]
  set t := 1 / Real.sqrt (n.x * n.x + n.y * n.y + n.z * n.z) with ht
  have hu := unit_normalize h0
  rw [← ht] at hu
  have hun : Spec.Unit (⟨(-n).x * t, (-n).y * t, (-n).z * t⟩ : V3 ℝ) := by
    unfold Spec.Unit at hu ⊢
    simp only [V3.neg_x, V3.neg_y, V3.neg_z]
    linear_combination hu
  have hua : Spec.Unit (⟨(app Q n).x * t, (app Q n).y * t, (app Q n).z * t⟩ : V3 ℝ) := by
    rw [← app_scale]
    have := len_app hQ ⟨n.x * t, n.y * t, n.z * t⟩
    unfold Spec.Unit at hu ⊢
    dsimp only at this hu
    linear_combination this + hu
  refine ⟨Option.Rel.some ?_, ?_⟩
  · rw [turned_iff]
    have e := frameMean2_indep (U := Q * rows (rotationMatrix ⟨n.x * t, n.y * t, n.z * t⟩))
      (U' := rows (rotationMatrix ⟨(app Q n).x * t, (app Q n).y * t, (app Q n).z * t⟩)) (by
        rw [Matrix.transpose_mul, Matrix.mul_assoc, ← Matrix.mul_assoc Qᵀ, hQ, Matrix.one_mul, rotation_orthonormal hu])
      (rotation_orthonormal hua) (Or.inl rfl) (fun i => by rw [one_mul, mul_col, frame_col, app_scale]) fill e1' e2'
    unfold frameMean2 at e
    rw [e, (turned_iff _ _ _).mp h1, (turned_iff _ _ _).mp h2, rotM_mul, rotM_mul, ← Matrix.mul_assoc Qᵀ, hQ, Matrix.one_mul, rotM_mul, Matrix.transpose_mul]
  · congr 1
    have e := frameMean2_indep (rotation_orthonormal hu) (rotation_orthonormal hun) (s := -1) (Or.inr rfl) (fun i => by
      rw [frame_col, frame_col]
      fin_cases i <;> simp [comp]) fill e1 e2
    exact e

end Mpb.Moment

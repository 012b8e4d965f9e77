import Verif.Moment.Cov

/-!
# The value stored at a pixel and at its image
-/

namespace Mpb.Moment
open Mpb.Tensor Mpb.Tensor.Spec Matrix

/-! ## Corners -/

theorem isCorner_act {md : MData} {S : Axes} (h1 : dim md = 1 → S.σ 0 = 0) (h2 : dim md = 2 → S.σ 2 = 2) {c : V3 ℝ}
    (hc : IsCorner (dim md) c) : IsCorner (dim md) (S.act c) := by
  have hd : dim md = 1 ∨ dim md = 2 ∨ dim md = 3 := by unfold dim; split_ifs <;> omega
  have habs : ∀ i, |comp (S.act c) i| = |comp c (S.σ i)| := by
    intro i
    rw [comp_act]
    split_ifs
    · exact abs_neg _
    · rfl
  have hinj : ∀ i j, S.σ i = S.σ j → i = j := fun i j h => S.σ.injective h
  have key : ∀ d, (IsCorner d c ↔ |comp c 0| = 1 / 2 ∧ (if 2 ≤ d then |comp c 1| = 1 / 2 else |comp c 1| = 0) ∧ (if 3 ≤ d then |comp c 2| = 1 / 2 else |comp c 2| = 0)) := by
    intro d
    simp only [IsCorner, comp, abs_eq_zero, Matrix.cons_val]
  have key' : ∀ d, (IsCorner d (S.act c) ↔ |comp (S.act c) 0| = 1 / 2 ∧ (if 2 ≤ d then |comp (S.act c) 1| = 1 / 2 else |comp (S.act c) 1| = 0) ∧ (if 3 ≤ d then |comp (S.act c) 2| = 1 / 2 else |comp (S.act c) 2| = 0)) := by
    intro d
    simp only [IsCorner, comp, abs_eq_zero, Matrix.cons_val]
  rw [key] at hc
  rw [key', habs, habs, habs]
  obtain ⟨c0, c1, c2⟩ := hc
  have n01 : S.σ 1 ≠ S.σ 0 := fun h => absurd (hinj _ _ h) (by decide)
  have n02 : S.σ 2 ≠ S.σ 0 := fun h => absurd (hinj _ _ h) (by decide)
  have n12 : S.σ 2 ≠ S.σ 1 := fun h => absurd (hinj _ _ h) (by decide)
  rcases hd with h | h | h <;> rw [h] at c1 c2 ⊢
  · have e0 := h1 h
    simp only [show ¬ (2 ≤ 1) by decide, show ¬ (3 ≤ 1) by decide, if_false] at c1 c2 ⊢
    rw [e0] at n01 n02 ⊢
    generalize S.σ 1 = a at *
    generalize S.σ 2 = b at *
    refine ⟨c0, ?_, ?_⟩
    · fin_cases a <;> first | exact absurd rfl n01 | exact c1 | exact c2
    · fin_cases b <;> first | exact absurd rfl n02 | exact c1 | exact c2
  · have e0 := h2 h
    simp only [show (2 ≤ 2) by decide, show ¬ (3 ≤ 2) by decide, if_true, if_false] at c1 c2 ⊢
    rw [e0] at n12 n02 ⊢
    generalize S.σ 1 = a at *
    generalize S.σ 0 = b at *
    refine ⟨?_, ?_, c2⟩
    · fin_cases b <;> first | exact absurd rfl n02 | exact c1 | exact c0
    · fin_cases a <;> first | exact absurd rfl n12 | exact c1 | exact c0
  · simp only [show (2 ≤ 3) by decide, show (3 ≤ 3) by decide, if_true] at c1 c2 ⊢
    have hall : ∀ j, |comp c j| = 1 / 2 := by
      intro j
      fin_cases j
      exacts [c0, c1, c2]
    exact ⟨hall _, hall _, hall _⟩

/-! ## Visible differences -/

/-- The sign of a component. -/
noncomputable def sgn (T : Axes) (i : Fin 3) : ℝ := if T.neg i then -1 else 1

theorem entry_of_axes {Q : Mat3} {T : Axes} (h : ∀ v, app Q v = T.act v) (i j : Fin 3) : Q i j = if j = T.σ i then sgn T i else 0 := by
  have hc : ∀ v, comp (app Q v) i = comp (T.act v) i := fun v => by rw [h]
  have hQ : ∀ v, comp (app Q v) i = Q i 0 * v.x + Q i 1 * v.y + Q i 2 * v.z := by
    intro v
    fin_cases i <;> rfl
  have hT : ∀ v, comp (T.act v) i = sgn T i * comp v (T.σ i) := by
    intro v
    rw [comp_act]
    unfold sgn
    split_ifs <;> ring
  generalize T.σ i = s at *
  fin_cases j
  · have := hc ⟨1, 0, 0⟩
    rw [hQ, hT] at this
    fin_cases s <;> simpa [comp] using this
  · have := hc ⟨0, 1, 0⟩
    rw [hQ, hT] at this
    fin_cases s <;> simpa [comp] using this
  · have := hc ⟨0, 0, 1⟩
    rw [hQ, hT] at this
    fin_cases s <;> simpa [comp] using this

theorem turned_entry {Q : Mat3} {T : Axes} (h : ∀ v, app Q v = T.act v) {e e' : HMat} (ht : Turned Q e e') (i j : Fin 3) :
    toMatrix e' i j = ((sgn T i * sgn T j : ℝ) : ℂ) * toMatrix e (T.σ i) (T.σ j) := by
  rw [ht]
  simp only [Matrix.mul_apply, Matrix.transpose_apply, Matrix.map_apply, entry_of_axes h]
  have h1 : ∀ x : Fin 3, (∑ k, (((if k = T.σ i then sgn T i else 0 : ℝ)) : ℂ) * toMatrix e k x) = (sgn T i : ℂ) * toMatrix e (T.σ i) x := by
    intro x
    rw [Finset.sum_eq_single (T.σ i)]
    · rw [if_pos rfl]
    · intro b _ hb
      rw [if_neg hb]; simp
    · intro h; exact absurd (Finset.mem_univ _) h
  simp only [h1]
  rw [Finset.sum_eq_single (T.σ j)]
  · rw [if_pos rfl]; push_cast; ring
  · intro b _ hb
    rw [if_neg hb]; simp
  · intro h; exact absurd (Finset.mem_univ _) h

theorem abs_sgn (T : Axes) (i j : Fin 3) : |sgn T i * sgn T j| = 1 := by
  unfold sgn
  split_ifs <;> norm_num

theorem far_axes {Q : Mat3} {T : Axes} (h : ∀ v, app Q v = T.act v) {A A' B B' : HMat} (hA : Turned Q A A') (hB : Turned Q B B') :
    Far A' B' ↔ Far A B := by
  have e : ∀ i j, (|(toMatrix A' i j).re - (toMatrix B' i j).re| = |(toMatrix A (T.σ i) (T.σ j)).re - (toMatrix B (T.σ i) (T.σ j)).re|) ∧
      (|(toMatrix A' i j).im - (toMatrix B' i j).im| = |(toMatrix A (T.σ i) (T.σ j)).im - (toMatrix B (T.σ i) (T.σ j)).im|) := by
    intro i j
    rw [turned_entry h hA, turned_entry h hB]
    simp only [Complex.re_ofReal_mul, Complex.im_ofReal_mul, ← mul_sub, abs_mul (sgn T i * sgn T j), abs_sgn, one_mul]
    exact ⟨trivial, trivial⟩
  unfold Far
  simp only [(e _ _).1, (e _ _).2]
  constructor
  · rintro ⟨i, j, h⟩
    exact ⟨_, _, h⟩
  · rintro ⟨i, j, h⟩
    refine ⟨T.σ.symm i, T.σ.symm j, ?_⟩
    simpa using h

theorem toMatrix_iso (e : ℝ) : toMatrix (iso e) = (e : ℂ) • (1 : Matrix (Fin 3) (Fin 3) ℂ) := by
  ext i j
  fin_cases i <;> fin_cases j <;> simp [toMatrix, iso]

theorem cm_orth {Q : Mat3} (h : Qᵀ * Q = 1) : cm Q * (cm Q)ᵀ = 1 := by
  have h' : Q * Qᵀ = 1 := mul_eq_one_comm.mp h
  rw [← cm_transpose, ← cm_mul, h']
  exact map_ofReal_one

theorem cm_orth' {Q : Mat3} (h : Qᵀ * Q = 1) : (cm Q)ᵀ * cm Q = 1 := mul_eq_one_comm.mp (cm_orth h)

theorem turned_iso {Q : Mat3} (h : Qᵀ * Q = 1) {e : ℝ} {e' : HMat} (ht : Turned Q (iso e) e') : e' = iso e := by
  apply toMatrix_inj
  rw [ht, toMatrix_iso, Matrix.mul_smul, Matrix.mul_one, Matrix.smul_mul, cm_orth h]

theorem far_turned {Q : Mat3} (hQ : Qᵀ * Q = 1) {A A' B B' : HMat} (h : (∃ T : Axes, ∀ v, app Q v = T.act v) ∨ (∃ e, A = iso e) ∧ ∃ e, B = iso e)
    (hA : Turned Q A A') (hB : Turned Q B B') : Far A' B' ↔ Far A B := by
  rcases h with ⟨T, h⟩ | ⟨⟨e, rfl⟩, ⟨f, rfl⟩⟩
  · exact far_axes h hA hB
  · rw [turned_iso hQ hA, turned_iso hQ hB]

theorem trace_turned {Q : Mat3} (hQ : Qᵀ * Q = 1) {e e' : HMat} (h : Turned Q e e') : (toMatrix e').trace = (toMatrix e).trace := by
  rw [h, Matrix.trace_mul_comm, ← Matrix.mul_assoc, cm_orth' hQ, Matrix.one_mul]

/-! ## The normal -/

/-- What is needed about one operation, with a translation by any vector. -/
structure Sym (rank : ℕ) (s : V3 ℝ) (a : DielArgs) (S : Axes) (tt : V3 ℝ) (Q : Mat3) : Prop where
  orth : Qᵀ * Q = 1
  lattice : ∀ v, a.Rl.mulVec (S.act v) = app Q (a.Rl.mulVec v)
  sides : ∀ i, comp s (S.σ i) = comp s i
  mesh : ∀ i, comp a.ms (S.σ i) = comp a.ms i
  dimOk : 1 ≤ rank ∧ rank ≤ 3
  corner : ∀ c, IsCorner rank c → IsCorner rank (S.act c)
  corner' : ∀ c, IsCorner rank c → IsCorner rank (S.inv.act c)
  moment : Invariant S.act a.moment
  axes : (∃ T : Axes, ∀ v, app Q v = T.act v) ∨ ∀ r, ∃ e, (a.epsilon r).1 = iso e
  eps : ∀ r, Turned Q (a.epsilon r).1 (a.epsilon (S.act r + tt)).1
  epsInv : ∀ r, Turned Q (a.epsilon r).2 (a.epsilon (S.act r + tt)).2
  meps : ∀ f, a.mepsilon = some f → ∀ r, Option.Rel (Turned Q) (f r) (f (S.act r + tt))

variable {rank : ℕ} {s : V3 ℝ} {a : DielArgs} {S : Axes} {tt : V3 ℝ} {Q : Mat3}

theorem Sym.charge (h : Sym rank s a S tt Q) (r : V3 ℝ) (p : Entry) : charge a.epsilon (S.act r + tt) (S.act p.1, p.2) = charge a.epsilon r p := by
  unfold Spec.charge
  have e : (⟨(S.act r + tt).x + (S.act p.1).x, (S.act r + tt).y + (S.act p.1).y, (S.act r + tt).z + (S.act p.1).z⟩ : V3 ℝ) = S.act (r + p.1) + tt := by
    rw [act_add]
    ext <;> simp <;> ring
  dsimp only
  rw [e, trace_turned h.orth (h.eps (r + p.1))]
  rfl

theorem comp_dipole (epsilon : V3 ℝ → HMat × HMat) (l : List Entry) (r : V3 ℝ) (i : Fin 3) :
    comp (dipole epsilon l r) i = (l.map fun p => Spec.charge epsilon r p * comp p.1 i).sum := by
  fin_cases i <;> rfl

theorem Sym.dipole (h : Sym rank s a S tt Q) (r : V3 ℝ) : dipole a.epsilon a.moment (S.act r + tt) = S.act (dipole a.epsilon a.moment r) := by
  refine v3_ext fun i => ?_
  rw [comp_dipole, h.moment.sum, comp_act, comp_dipole]
  have e : (a.moment.map fun p : Entry => Spec.charge a.epsilon (S.act r + tt) (S.act p.1, p.2) * comp (S.act p.1, p.2).1 i) =
      a.moment.map fun p => (if S.neg i then -1 else 1) * (Spec.charge a.epsilon r p * comp p.1 (S.σ i)) := by
    refine List.map_congr_left fun p _ => ?_
    rw [h.charge, comp_act]
    split_ifs <;> ring
  rw [e, List.sum_map_mul_left]
  split_ifs <;> ring

theorem Sym.normal (h : Sym rank s a S tt Q) (r : V3 ℝ) :
    interfaceNormal a.epsilon a.moment a.Rl (S.act r + tt) = app Q (interfaceNormal a.epsilon a.moment a.Rl r) := by
  rw [interfaceNormal_eq, interfaceNormal_eq, h.dipole, h.lattice]

theorem Sym.detect (h : Sym rank s a S tt Q) (r : V3 ℝ) : detectInterface a.epsilon rank s (S.act r + tt) = detectInterface a.epsilon rank s r := by
  rw [Bool.eq_iff_iff, C84_detect _ h.dimOk, C84_detect _ h.dimOk]
  have e : ∀ c, (⟨(S.act r + tt).x + (S.act c).x * s.x, (S.act r + tt).y + (S.act c).y * s.y, (S.act r + tt).z + (S.act c).z * s.z⟩ : V3 ℝ) =
      S.act ⟨r.x + c.x * s.x, r.y + c.y * s.y, r.z + c.z * s.z⟩ + tt := by
    intro c
    refine v3_ext fun i => ?_
    have h1 : ∀ (u v : V3 ℝ) (i : Fin 3), comp (⟨u.x + v.x * s.x, u.y + v.y * s.y, u.z + v.z * s.z⟩ : V3 ℝ) i = comp u i + comp v i * comp s i := by
      intro u v i
      fin_cases i <;> rfl
    rw [h1, comp_add, comp_add, comp_act, comp_act, comp_act, h1, h.sides]
    split_ifs <;> ring
  have ax : ∀ q q' : V3 ℝ, (∃ T : Axes, ∀ v, app Q v = T.act v) ∨ (∃ e, (a.epsilon q).1 = iso e) ∧ ∃ e, (a.epsilon q').1 = iso e :=
    fun q q' => h.axes.imp_right fun h => ⟨h _, h _⟩
  unfold Interface
  constructor
  · rintro ⟨c, hc, hf⟩
    refine ⟨S.inv.act c, h.corner' c hc, ?_⟩
    rw [← act_inv S c, e] at hf
    exact (far_turned h.orth (ax _ _) (h.eps _) (h.eps _)).mp hf
  · rintro ⟨c, hc, hf⟩
    refine ⟨S.act c, h.corner c hc, ?_⟩
    rw [e]
    exact (far_turned h.orth (ax _ _) (h.eps _) (h.eps _)).mpr hf

/-! ## Averages -/

theorem foldl_map_perm {α : Type*} (f : α → HMat) (T : α → α) {l l' : List α} (h : l'.Perm (l.map T)) :
    l'.foldl (fun t q => hAdd t (f q)) hZero = l.foldl (fun t q => hAdd t (f (T q))) hZero := by
  rw [foldl_perm f h, List.foldl_map]

theorem Sym.average (h : Sym rank s a S tt Q) (r : V3 ℝ) (p : ℝ) :
    Turned Q (averageEpsInv a.epsilon a.ms s r p) (averageEpsInv a.epsilon a.ms s (S.act r + tt) p) := by
  rw [turned_iff, averageEpsInv_eq, averageEpsInv_eq, rotM_hScale,
    foldl_map_perm (fun q => (a.epsilon q).2) _ (meshPoints_perm S tt a.ms s r h.mesh h.sides)]
  congr 1
  have := foldl_rotM (fun q => (a.epsilon q).2) (fun q => (a.epsilon (S.act q + tt)).2) Qᵀ (meshPoints a.ms s r) hZero
    fun q _ => (turned_iff _ _ _).mp (h.epsInv q)
  rw [rotM_hZero] at this
  exact this

theorem turned_inv {Q : Mat3} (hQ : Qᵀ * Q = 1) {V V' W W' : HMat} (h : Turned Q V V') (h1 : hInvert V = .ok W) (h2 : hInvert V' = .ok W') : Turned Q W W' := by
  have e1 := hInvert_ok h1
  have e2 := hInvert_ok h2
  rw [h] at e2
  unfold Turned
  have e3 : cm Q * toMatrix V * (cm Q)ᵀ * (cm Q * toMatrix W * (cm Q)ᵀ) = 1 := by
    have : cm Q * toMatrix V * (cm Q)ᵀ * (cm Q * toMatrix W * (cm Q)ᵀ) = cm Q * (toMatrix V * (((cm Q)ᵀ * cm Q) * toMatrix W)) * (cm Q)ᵀ := by
      simp only [Matrix.mul_assoc]
    rw [this, cm_orth' hQ, Matrix.one_mul, e1, Matrix.mul_one, cm_orth hQ]
  have e4 := mul_eq_one_comm.mp e3
  calc toMatrix W' = (cm Q * toMatrix W * (cm Q)ᵀ * (cm Q * toMatrix V * (cm Q)ᵀ)) * toMatrix W' := by rw [e4, Matrix.one_mul]
    _ = cm Q * toMatrix W * (cm Q)ᵀ := by rw [Matrix.mul_assoc, e2, Matrix.mul_one]

theorem kottkeMesh_eq (epsilon : V3 ℝ → HMat × HMat) (ms : V3 ℤ) (s r : V3 ℝ) (p : ℝ) (n : V3 ℝ) (len : ℝ) :
    kottkeMesh epsilon ms s r p n len =
      hInvert (frameMean (rows (rotationMatrix ⟨n.x * (1 / len), n.y * (1 / len), n.z * (1 / len)⟩)) p (fun q => (epsilon q).1) (meshPoints ms s r)) := by
  unfold kottkeMesh frameMean
  simp only [hRotate_eq, rows_swapRot]

theorem frameMean_perm {α : Type*} (U : Mat3) (t : ℝ) (f : α → HMat) (T : α → α) {l l' : List α} (h : l'.Perm (l.map T)) :
    frameMean U t f l' = frameMean U t (fun q => f (T q)) l := by
  unfold frameMean
  rw [foldl_map_perm (fun q => tau (rotM (f q) U)) T h]

theorem frame_col (n : V3 ℝ) (i : Fin 3) : rows (rotationMatrix n) i 0 = comp n i := by
  fin_cases i <;> rfl

theorem mul_col (Q : Mat3) (n : V3 ℝ) (i : Fin 3) : (Q * rows (rotationMatrix n)) i 0 = comp (app Q n) i := by
  rw [Matrix.mul_apply, Fin.sum_univ_three, frame_col, frame_col, frame_col]
  fin_cases i <;> rfl

theorem orth_rows {Q : Mat3} (h : Qᵀ * Q = 1) (i j : Fin 3) : Q 0 i * Q 0 j + Q 1 i * Q 1 j + Q 2 i * Q 2 j = if i = j then 1 else 0 := by
  have : (Qᵀ * Q) i j = (1 : Mat3) i j := by rw [h]
  rw [Matrix.mul_apply, Fin.sum_univ_three] at this
  simpa [Matrix.one_apply] using this

theorem len_app {Q : Mat3} (h : Qᵀ * Q = 1) (v : V3 ℝ) :
    (app Q v).x * (app Q v).x + (app Q v).y * (app Q v).y + (app Q v).z * (app Q v).z = v.x * v.x + v.y * v.y + v.z * v.z := by
  have h00 := orth_rows h 0 0
  have h11 := orth_rows h 1 1
  have h22 := orth_rows h 2 2
  have h01 := orth_rows h 0 1
  have h02 := orth_rows h 0 2
  have h12 := orth_rows h 1 2
  simp only [Fin.reduceEq, if_true, if_false] at h00 h11 h22 h01 h02 h12
  simp only [app]
  linear_combination v.x * v.x * h00 + v.y * v.y * h11 + v.z * v.z * h22 + 2 * v.x * v.y * h01 + 2 * v.x * v.z * h02 + 2 * v.y * v.z * h12

theorem app_scale (Q : Mat3) (v : V3 ℝ) (t : ℝ) : app Q ⟨v.x * t, v.y * t, v.z * t⟩ = ⟨(app Q v).x * t, (app Q v).y * t, (app Q v).z * t⟩ := by
  unfold app
  ext <;> dsimp only <;> ring

/-- The average in the frame of the normal, turned. -/
theorem frameMean_cov {α : Type*} {Q : Mat3} (hQ : Qᵀ * Q = 1) (t : ℝ) (f g : α → HMat) (l : List α) (h : ∀ q ∈ l, Turned Q (f q) (g q)) {n : V3 ℝ}
    (hn : Spec.Unit n) :
    frameMean (rows (rotationMatrix (app Q n))) t g l = rotM (frameMean (rows (rotationMatrix n)) t f l) Qᵀ := by
  have hn' : Spec.Unit (app Q n) := by
    have := len_app hQ n
    unfold Spec.Unit at hn ⊢
    nlinarith
  have hU := rotation_orthonormal hn
  have hU' := rotation_orthonormal hn'
  rw [← frameMean_turn hQ t f g l h]
  refine frameMean_indep ?_ hU' (Or.inl rfl) (fun i => ?_) t g l
  · rw [Matrix.transpose_mul, Matrix.mul_assoc, ← Matrix.mul_assoc Qᵀ, hQ, Matrix.one_mul, hU]
  · rw [one_mul, mul_col, frame_col]

theorem Sym.kottke (h : Sym rank s a S tt Q) (r : V3 ℝ) (p : ℝ) {n : V3 ℝ} (hn : Real.sqrt (n.x * n.x + n.y * n.y + n.z * n.z) ≠ 0) {m m' : HMat}
    (h1 : kottkeMesh a.epsilon a.ms s r p n (Real.sqrt (n.x * n.x + n.y * n.y + n.z * n.z)) = .ok m)
    (h2 : kottkeMesh a.epsilon a.ms s (S.act r + tt) p (app Q n) (Real.sqrt (n.x * n.x + n.y * n.y + n.z * n.z)) = .ok m') : Turned Q m m' := by
  rw [kottkeMesh_eq] at h1 h2
  refine turned_inv h.orth ?_ h1 h2
  rw [turned_iff, ← app_scale, frameMean_perm _ _ _ _ (meshPoints_perm S tt a.ms s r h.mesh h.sides)]
  exact frameMean_cov h.orth p (fun q => (a.epsilon q).1) (fun q => (a.epsilon (S.act q + tt)).1) _ (fun q _ => h.eps q) (unit_normalize hn)

/-- The values stored at a pixel and at its image. -/
theorem Sym.voxel (h : Sym rank s a S tt Q) (r : V3 ℝ) {m m' : HMat} (h1 : voxel a rank s r = .ok m) (h2 : voxel a rank s (S.act r + tt) = .ok m') :
    Turned Q m m' := by
  classical
  unfold Tensor.voxel at h1 h2
  dsimp only at h1 h2
  by_cases hp : (getMesh a.ms).2 = 1
  · rw [if_pos hp] at h1 h2
    rw [← Res.ok_inj h1, ← Res.ok_inj h2]
    exact h.epsInv r
  rw [if_neg hp] at h1 h2
  have hmb : Option.Rel (Turned Q) (a.mepsilon.bind fun f => f r) (a.mepsilon.bind fun f => f (S.act r + tt)) := by
    cases hm : a.mepsilon with
    | none => exact Option.Rel.none
    | some f => exact h.meps f hm r
  generalize (a.mepsilon.bind fun f => f r) = b1 at h1 hmb
  generalize (a.mepsilon.bind fun f => f (S.act r + tt)) = b2 at h2 hmb
  cases hmb with
  | some ht =>
    exact turned_inv h.orth ht h1 h2
  | none =>
    dsimp only at h1 h2
    rw [h.detect] at h2
    by_cases hd : detectInterface a.epsilon rank s r = true
    · rw [if_pos hd] at h1 h2
      rw [h.normal, len_app h.orth] at h2
      generalize interfaceNormal a.epsilon a.moment a.Rl r = n at h1 h2
      by_cases hl : Real.sqrt (n.x * n.x + n.y * n.y + n.z * n.z) > small
      · rw [if_pos hl] at h1 h2
        have : (0 : ℝ) < small := by unfold small; norm_num
        exact h.kottke r _ (by linarith [hl] : (0:ℝ) < _).ne' h1 h2
      · rw [if_neg hl] at h1 h2
        rw [← Res.ok_inj h1, ← Res.ok_inj h2]
        exact h.average r _
    · rw [if_neg hd] at h1 h2
      rw [← Res.ok_inj h1, ← Res.ok_inj h2]
      exact h.epsInv r

end Mpb.Moment

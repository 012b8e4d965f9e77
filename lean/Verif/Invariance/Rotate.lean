import Verif.Invariance.Chain
import Verif.Invariance.Homogeneous
import Verif.Moment.Spec
import Verif.Maxwell.Props

/-! # Property C97: turning or reflecting the structure as a whole -/

namespace Mpb.Invariance
open Mpb.Maxwell Mpb.Maxwell.Spec Spec
open Mpb.Moment (app Turned)

/-- The conditions of orthogonality, entry by entry. -/
theorem orth_entries {Q : Matrix (Fin 3) (Fin 3) ℝ} (h : Q.transpose * Q = 1) (i j : Fin 3) :
    Q 0 i * Q 0 j + Q 1 i * Q 1 j + Q 2 i * Q 2 j = if i = j then 1 else 0 := by
  have := congrFun (congrFun h i) j
  rw [Matrix.mul_apply, Fin.sum_univ_three, Matrix.one_apply] at this
  exact this

theorem app_dot {Q : Matrix (Fin 3) (Fin 3) ℝ} (h : Q.transpose * Q = 1) (u v : V3 ℝ) : (app Q u).dot (app Q v) = u.dot v := by
  have e := orth_entries h
  have h00 := e 0 0; have h11 := e 1 1; have h22 := e 2 2; have h01 := e 0 1; have h02 := e 0 2; have h12 := e 1 2
  simp at h00 h11 h22 h01 h02 h12
  simp only [app, V3.dot]
  linear_combination (u.x * v.x) * h00 + (u.y * v.y) * h11 + (u.z * v.z) * h22 + (u.x * v.y + u.y * v.x) * h01 + (u.x * v.z + u.z * v.x) * h02 + (u.y * v.z + u.z * v.y) * h12

theorem det_sq {Q : Matrix (Fin 3) (Fin 3) ℝ} (h : Q.transpose * Q = 1) : Q.det * Q.det = 1 := by
  have := congrArg Matrix.det h
  rwa [Matrix.det_mul, Matrix.det_transpose, Matrix.det_one] at this

theorem app_cross {Q : Matrix (Fin 3) (Fin 3) ℝ} (h : Q.transpose * Q = 1) (u v : V3 ℝ) :
    V3.cross (app Q u) (app Q v) = V3.smul Q.det (app Q (V3.cross u v)) := by
  have h' : Q * Q.transpose = 1 := mul_eq_one_comm.mp h
  have e : ∀ i j : Fin 3, Q i 0 * Q j 0 + Q i 1 * Q j 1 + Q i 2 * Q j 2 = if i = j then 1 else 0 := by
    intro i j
    have := congrFun (congrFun h' i) j
    rw [Matrix.mul_apply, Fin.sum_univ_three, Matrix.one_apply] at this
    exact this
  have g : ∀ w : V3 ℝ, app Q (app Q.transpose w) = w := by
    intro w
    have h00 := e 0 0; have h11 := e 1 1; have h22 := e 2 2; have h01 := e 0 1; have h02 := e 0 2; have h12 := e 1 2
    simp at h00 h11 h22 h01 h02 h12
    ext <;> simp only [app, Matrix.transpose_apply]
    · linear_combination w.x * h00 + w.y * h01 + w.z * h02
    · linear_combination w.x * h01 + w.y * h11 + w.z * h12
    · linear_combination w.x * h02 + w.y * h12 + w.z * h22
  have key : app Q.transpose (V3.cross (app Q u) (app Q v)) = V3.smul Q.det (V3.cross u v) := by
    rw [Matrix.det_fin_three]
    ext <;> simp only [app, V3.cross, V3.smul, Matrix.transpose_apply] <;> ring
  have l : ∀ (c : ℝ) w, app Q (V3.smul c w) = V3.smul c (app Q w) := by
    intro c w
    ext <;> simp only [app, V3.smul] <;> ring
  rw [← g (V3.cross (app Q u) (app Q v)), key, l]

theorem latticeGm_eq (R : M3 ℝ) : Velocity.latticeGm R = ⟨V3.smul (1 / R.det) (V3.cross R.c1 R.c2), V3.smul (1 / R.det) (V3.cross R.c2 R.c0),
    V3.smul (1 / R.det) (V3.cross R.c0 R.c1)⟩ := by
  have hd : M3.det R.transpose = M3.det R := by simp only [M3.det, M3.transpose]; ring
  unfold Velocity.latticeGm MpbData.inverse
  rw [hd]
  simp only [M3.transpose, V3.smul, V3.cross]
  congr 1 <;> congr 1 <;> ring

theorem latticeGm_rotated {Q : Matrix (Fin 3) (Fin 3) ℝ} (h : Q.transpose * Q = 1) (R : M3 ℝ) :
    Velocity.latticeGm (rotated Q R) = rotated Q (Velocity.latticeGm R) := by
  have hd : (rotated Q R).det = Q.det * R.det := by
    rw [Matrix.det_fin_three]
    simp only [M3.det, rotated, app]; ring
  have hs := det_sq h
  have h0 : Q.det ≠ 0 := fun hc => by rw [hc] at hs; simp at hs
  rw [latticeGm_eq, latticeGm_eq, hd]
  have l : ∀ (c : ℝ) w, app Q (V3.smul c w) = V3.smul c (app Q w) := by
    intro c w
    ext <;> simp only [app, V3.smul] <;> ring
  simp only [rotated, app_cross h, l]
  have e : ∀ w : V3 ℝ, V3.smul (1 / (Q.det * R.det)) (V3.smul Q.det w) = V3.smul (1 / R.det) w := by
    intro w
    have : 1 / (Q.det * R.det) * Q.det = 1 / R.det := by
      by_cases hR : R.det = 0
      · simp [hR]
      · field_simp
    ext <;> simp only [V3.smul] <;> rw [← mul_assoc, this]
  simp only [e]

theorem waveVec_rotated (Q : Matrix (Fin 3) (Fin 3) ℝ) (G : M3 ℝ) (k : V3 ℝ) (g : V3 ℤ) :
    waveVec (rotated Q G).c0 (rotated Q G).c1 (rotated Q G).c2 k g = app Q (waveVec G.c0 G.c1 G.c2 k g) := by
  ext <;> simp only [waveVec, rotated, app, V3.smul, V3.add_x, V3.add_y, V3.add_z] <;> ring

/-- Three orthonormal vectors, the third being the cross product of the first two, resolve every vector. -/
theorem resolve {m n : V3 ℝ} (mm : m.x * m.x + m.y * m.y + m.z * m.z = 1) (nn : n.x * n.x + n.y * n.y + n.z * n.z = 1)
    (mn : m.x * n.x + m.y * n.y + m.z * n.z = 0) (u : V3 ℝ) :
    u = V3.smul (u.dot m) m + V3.smul (u.dot n) n + V3.smul (u.dot (V3.cross m n)) (V3.cross m n) := by
  set w := V3.cross m n with hw
  have wx : w.x = m.y * n.z - m.z * n.y := rfl
  have wy : w.y = m.z * n.x - m.x * n.z := rfl
  have wz : w.z = m.x * n.y - m.y * n.x := rfl
  have ww : w.x * w.x + w.y * w.y + w.z * w.z = 1 := by
    rw [wx, wy, wz]
    linear_combination (n.x * n.x + n.y * n.y + n.z * n.z) * mm + nn - (m.x * n.x + m.y * n.y + m.z * n.z) * mn
  have mw : m.x * w.x + m.y * w.y + m.z * w.z = 0 := by rw [wx, wy, wz]; ring
  have nw : n.x * w.x + n.y * w.y + n.z * w.z = 0 := by rw [wx, wy, wz]; ring
  have h1 : !![m.x, m.y, m.z; n.x, n.y, n.z; w.x, w.y, w.z] * (!![m.x, m.y, m.z; n.x, n.y, n.z; w.x, w.y, w.z]).transpose = 1 := by
    ext i j
    rw [Matrix.mul_apply, Fin.sum_univ_three, Matrix.one_apply]
    fin_cases i <;> fin_cases j <;> simp <;> linarith
  have h2 := mul_eq_one_comm.mp h1
  have e : ∀ i j : Fin 3, _ := fun i j => congrFun (congrFun h2 i) j
  simp only [Matrix.mul_apply, Fin.sum_univ_three, Matrix.one_apply, Matrix.transpose_apply] at e
  have h00 := e 0 0; have h11 := e 1 1; have h22 := e 2 2; have h01 := e 0 1; have h02 := e 0 2; have h12 := e 1 2
  simp at h00 h11 h22 h01 h02 h12
  ext <;> simp only [V3.add_x, V3.add_y, V3.add_z, V3.smul_x, V3.smul_y, V3.smul_z, V3.dot]
  · linear_combination -u.x * h00 - u.y * h01 - u.z * h02
  · linear_combination -u.x * h01 - u.y * h11 - u.z * h12
  · linear_combination -u.x * h02 - u.y * h12 - u.z * h22

/-- A vector orthogonal to `K ≠ 0` lies in the plane of `m` and `n`. -/
theorem expand {K : V3 ℝ} {k : KData} (hb : IsBasis K k) (hK : K ≠ ⟨0, 0, 0⟩) (u : V3 ℝ) (hu : u.dot K = 0) :
    u = V3.smul (u.dot k.m) k.m + V3.smul (u.dot k.n) k.n := by
  have h := resolve hb.mm hb.nn hb.mn u
  have hk : k.kmag ≠ 0 := by
    intro h0
    apply hK
    rw [hb.rh, h0]
    ext <;> simp
  have h0 : u.dot (V3.cross k.m k.n) = 0 := by
    have : u.dot K = k.kmag * u.dot (V3.cross k.m k.n) := by
      conv_lhs => rw [hb.rh]
      simp only [V3.dot, V3.smul]; ring
    rw [this] at hu
    exact (mul_eq_zero.mp hu).resolve_left hk
  rw [h0] at h
  have z : V3.smul 0 (V3.cross k.m k.n) = (⟨0, 0, 0⟩ : V3 ℝ) := by ext <;> simp
  rw [z] at h
  conv_lhs => rw [h]
  ext <;> simp

/-- The turned transverse basis in terms of the transverse basis of the turned wavevector: a real orthogonal 2 x 2 matrix. -/
structure Link (Q : Matrix (Fin 3) (Fin 3) ℝ) (k k' : KData) (a b c e : ℝ) : Prop where
  m : app Q k.m = V3.smul a k'.m + V3.smul c k'.n
  n : app Q k.n = V3.smul b k'.m + V3.smul e k'.n
  m' : app Q.transpose k'.m = V3.smul a k.m + V3.smul b k.n
  n' : app Q.transpose k'.n = V3.smul c k.m + V3.smul e k.n

theorem app_transpose_dot (Q : Matrix (Fin 3) (Fin 3) ℝ) (u v : V3 ℝ) : (app Q.transpose u).dot v = u.dot (app Q v) := by
  simp only [app, V3.dot, Matrix.transpose_apply]; ring

theorem exists_link {Q : Matrix (Fin 3) (Fin 3) ℝ} (h : Q.transpose * Q = 1) {K : V3 ℝ} {k k' : KData} (hb : IsBasis K k) (hb' : IsBasis (app Q K) k')
    (hK : K ≠ ⟨0, 0, 0⟩) : ∃ a b c e, Link Q k k' a b c e ∧ a * a + c * c = 1 ∧ b * b + e * e = 1 ∧ a * b + c * e = 0 := by
  have hK' : app Q K ≠ ⟨0, 0, 0⟩ := by
    intro h0
    have := app_dot h K K
    rw [h0] at this
    simp only [V3.dot] at this
    apply hK
    have h1 : K.x = 0 := by nlinarith [sq_nonneg K.x, sq_nonneg K.y, sq_nonneg K.z]
    have h2 : K.y = 0 := by nlinarith [sq_nonneg K.x, sq_nonneg K.y, sq_nonneg K.z]
    have h3 : K.z = 0 := by nlinarith [sq_nonneg K.x, sq_nonneg K.y, sq_nonneg K.z]
    ext <;> assumption
  have mK : k.m.dot K = 0 := hb.mK
  have nK : k.n.dot K = 0 := hb.nK
  have mK' : k'.m.dot (app Q K) = 0 := hb'.mK
  have nK' : k'.n.dot (app Q K) = 0 := hb'.nK
  have e1 := expand hb' hK' (app Q k.m) (by rw [app_dot h, mK])
  have e2 := expand hb' hK' (app Q k.n) (by rw [app_dot h, nK])
  have e3 := expand hb hK (app Q.transpose k'.m) (by rw [app_transpose_dot, mK'])
  have e4 := expand hb hK (app Q.transpose k'.n) (by rw [app_transpose_dot, nK'])
  rw [app_transpose_dot, app_transpose_dot] at e3 e4
  have comm : ∀ u v : V3 ℝ, u.dot v = v.dot u := fun u v => by simp only [V3.dot]; ring
  rw [comm k'.m, comm k'.m] at e3
  rw [comm k'.n, comm k'.n] at e4
  refine ⟨(app Q k.m).dot k'.m, (app Q k.n).dot k'.m, (app Q k.m).dot k'.n, (app Q k.n).dot k'.n, ⟨e1, e2, e3, e4⟩, ?_⟩
  have q1 : (app Q k.m).dot (app Q k.m) = 1 := by rw [app_dot h]; exact hb.mm
  have q2 : (app Q k.n).dot (app Q k.n) = 1 := by rw [app_dot h]; exact hb.nn
  have q3 : (app Q k.m).dot (app Q k.n) = 0 := by rw [app_dot h]; exact hb.mn
  have mm := hb'.mm
  have nn := hb'.nn
  have mn := hb'.mn
  generalize (app Q k.m).dot k'.m = a at *
  generalize (app Q k.m).dot k'.n = c at *
  generalize (app Q k.n).dot k'.m = b at *
  generalize (app Q k.n).dot k'.n = e at *
  rw [e1] at q1 q3
  rw [e2] at q2 q3
  simp only [V3.dot, V3.add_x, V3.add_y, V3.add_z, V3.smul_x, V3.smul_y, V3.smul_z] at q1 q2 q3
  refine ⟨?_, ?_, ?_⟩
  · linear_combination q1 - a * a * mm - c * c * nn - 2 * a * c * mn
  · linear_combination q2 - b * b * mm - e * e * nn - 2 * b * e * mn
  · linear_combination q3 - a * b * mm - c * e * nn - (a * e + b * c) * mn

theorem rows_of_columns {a b c e : ℝ} (h1 : a * a + c * c = 1) (h2 : b * b + e * e = 1) (h3 : a * b + c * e = 0) :
    a * a + b * b = 1 ∧ c * c + e * e = 1 ∧ a * c + b * e = 0 := by
  have h : (!![a, b; c, e]).transpose * !![a, b; c, e] = 1 := by
    ext i j
    rw [Matrix.mul_apply, Fin.sum_univ_two, Matrix.one_apply]
    fin_cases i <;> fin_cases j <;> simp <;> linarith
  have h' := mul_eq_one_comm.mp h
  have e' : ∀ i j : Fin 2, _ := fun i j => congrFun (congrFun h' i) j
  simp only [Matrix.mul_apply, Fin.sum_univ_two, Matrix.one_apply, Matrix.transpose_apply] at e'
  have h00 := e' 0 0; have h11 := e' 1 1; have h01 := e' 0 1
  simp at h00 h11 h01
  exact ⟨h00, h11, h01⟩

/-- A real orthogonal change of the two amplitudes. -/
noncomputable def ortho {a b c e : ℝ} (h1 : a * a + c * c = 1) (h2 : b * b + e * e = 1) (h3 : a * b + c * e = 0) : (ℂ × ℂ) ≃ₗ[ℂ] (ℂ × ℂ) where
  toFun v := (a * v.1 + b * v.2, c * v.1 + e * v.2)
  invFun v := (a * v.1 + c * v.2, b * v.1 + e * v.2)
  map_add' v w := by
    refine Prod.ext ?_ ?_ <;> simp only [Prod.fst_add, Prod.snd_add] <;> ring
  map_smul' t v := by
    refine Prod.ext ?_ ?_ <;> simp only [Prod.smul_fst, Prod.smul_snd, smul_eq_mul, RingHom.id_apply] <;> ring
  left_inv v := by
    have h1' : (a : ℂ) * a + c * c = 1 := by exact_mod_cast h1
    have h2' : (b : ℂ) * b + e * e = 1 := by exact_mod_cast h2
    have h3' : (a : ℂ) * b + c * e = 0 := by exact_mod_cast h3
    refine Prod.ext ?_ ?_ <;> dsimp only
    · linear_combination v.1 * h1' + v.2 * h3'
    · linear_combination v.1 * h3' + v.2 * h2'
  right_inv v := by
    obtain ⟨g1, g2, g3⟩ := rows_of_columns h1 h2 h3
    have h1' : (a : ℂ) * a + b * b = 1 := by exact_mod_cast g1
    have h2' : (c : ℂ) * c + e * e = 1 := by exact_mod_cast g2
    have h3' : (a : ℂ) * c + b * e = 0 := by exact_mod_cast g3
    refine Prod.ext ?_ ?_ <;> dsimp only
    · linear_combination v.1 * h1' + v.2 * h3'
    · linear_combination v.1 * h3' + v.2 * h2'

theorem ortho_norm {a b c e : ℝ} (h1 : a * a + c * c = 1) (h2 : b * b + e * e = 1) (h3 : a * b + c * e = 0) (v : ℂ × ℂ) :
    Complex.normSq (ortho h1 h2 h3 v).1 + Complex.normSq (ortho h1 h2 h3 v).2 = Complex.normSq v.1 + Complex.normSq v.2 := by
  simp only [ortho, LinearEquiv.coe_mk, LinearMap.coe_mk, AddHom.coe_mk, Complex.normSq_apply, Complex.add_re, Complex.add_im, Complex.mul_re, Complex.mul_im,
    Complex.ofReal_re, Complex.ofReal_im]
  linear_combination (v.1.re ^ 2 + v.1.im ^ 2) * h1 + (v.2.re ^ 2 + v.2.im ^ 2) * h2 + 2 * (v.1.re * v.2.re + v.1.im * v.2.im) * h3

theorem ortho_apply {a b c e : ℝ} (h1 : a * a + c * c = 1) (h2 : b * b + e * e = 1) (h3 : a * b + c * e = 0) (v : ℂ × ℂ) :
    ortho h1 h2 h3 v = (a * v.1 + b * v.2, c * v.1 + e * v.2) := rfl

theorem turn_toC (Q : Matrix (Fin 3) (Fin 3) ℝ) (v : V3 ℝ) : turn Q (toC v) = toC (app Q v) := by
  ext <;> simp [turn, toC, app]

theorem turn_add (Q : Matrix (Fin 3) (Fin 3) ℝ) (u v : V3 ℂ) : turn Q (u + v) = turn Q u + turn Q v := by
  ext <;> simp only [turn, V3.add_x, V3.add_y, V3.add_z] <;> ring

theorem toC_add (u v : V3 ℝ) : toC (u + v) = toC u + toC v := by
  ext <;> simp [toC]

theorem toC_smul (t : ℝ) (v : V3 ℝ) : toC (V3.smul t v) = V3.smul (t : ℂ) (toC v) := by
  ext <;> simp [toC]

/-- The field of the changed amplitudes is the turned field. -/
theorem cart_ortho {Q : Matrix (Fin 3) (Fin 3) ℝ} {k k' : KData} {a b c e : ℝ} (hl : Link Q k k' a b c e) (h1 : a * a + c * c = 1)
    (h2 : b * b + e * e = 1) (h3 : a * b + c * e = 0) (v : ℂ × ℂ) : cart k' (ortho h1 h2 h3 v) = turn Q (cart k v) := by
  rw [ortho_apply]
  unfold cart
  rw [turn_add, turn_smul, turn_smul, turn_toC, turn_toC, hl.m, hl.n, toC_add, toC_add, toC_smul, toC_smul, toC_smul, toC_smul]
  ext <;> simp only [V3.add_x, V3.add_y, V3.add_z, V3.smul_x, V3.smul_y, V3.smul_z] <;> ring

theorem cart_injective {K : V3 ℝ} {k : KData} (hb : IsBasis K k) {v w : ℂ × ℂ} (h : cart k v = cart k w) : v = w := by
  have hv := C02_roundtrip K k hb v.1 v.2 1
  have hw := C02_roundtrip K k hb w.1 w.2 1
  rw [C02_t2c] at hv hw
  rw [show ((v.1, v.2) : ℂ × ℂ) = v from rfl] at hv
  rw [show ((w.1, w.2) : ℂ × ℂ) = w from rfl] at hw
  rw [h, hw] at hv
  simp only [Complex.ofReal_one, one_mul] at hv
  exact hv.symm

theorem cross_turn {Q : Matrix (Fin 3) (Fin 3) ℝ} (h : Q.transpose * Q = 1) (K : V3 ℝ) (u : V3 ℂ) :
    V3.cross (toC (app Q K)) (turn Q u) = V3.smul (Q.det : ℂ) (turn Q (V3.cross (toC K) u)) := by
  have hre := app_cross h K ⟨u.x.re, u.y.re, u.z.re⟩
  have him := app_cross h K ⟨u.x.im, u.y.im, u.z.im⟩
  have ex := congrArg V3.x hre; have ey := congrArg V3.y hre; have ez := congrArg V3.z hre
  have fx := congrArg V3.x him; have fy := congrArg V3.y him; have fz := congrArg V3.z him
  simp only [V3.cross, app, V3.smul] at ex ey ez fx fy fz
  ext <;> apply Complex.ext <;> simp [V3.cross, toC, turn, app, V3.smul] <;> linarith

theorem turn_smulM (t : ℝ) (Q : Matrix (Fin 3) (Fin 3) ℝ) (u : V3 ℂ) : turn (t • Q) u = V3.smul (t : ℂ) (turn Q u) := by
  ext <;> simp [turn] <;> ring

theorem mulVec_turned {Q : Matrix (Fin 3) (Fin 3) ℝ} (h : Q.transpose * Q = 1) {M M' : HMat} (ht : Turned Q M M') (u : V3 ℂ) :
    M'.mulVec (turn Q u) = turn Q (M.mulVec u) := by
  have hm : ∀ (A : HMat) (v : V3 ℂ), ![(A.mulVec v).x, (A.mulVec v).y, (A.mulVec v).z] = (Tensor.Spec.toMatrix A).mulVec ![v.x, v.y, v.z] := by
    intro A v
    funext i
    fin_cases i <;> apply Complex.ext <;> simp [HMat.mulVec, Tensor.Spec.toMatrix, Matrix.mulVec, dotProduct, Fin.sum_univ_three] <;> ring
  have hq : ∀ v : V3 ℂ, ![(turn Q v).x, (turn Q v).y, (turn Q v).z] = (Q.map fun x : ℝ => (x : ℂ)).mulVec ![v.x, v.y, v.z] := by
    intro v
    funext i
    fin_cases i <;> simp [turn, Matrix.mulVec, dotProduct, Fin.sum_univ_three]
  have ho : (Q.map fun x : ℝ => (x : ℂ)).transpose * (Q.map fun x : ℝ => (x : ℂ)) = 1 := by
    ext i j
    have := orth_entries h i j
    rw [Matrix.mul_apply, Fin.sum_univ_three, Matrix.one_apply]
    simp only [Matrix.transpose_apply, Matrix.map_apply]
    have h2 : ((Q 0 i * Q 0 j + Q 1 i * Q 1 j + Q 2 i * Q 2 j : ℝ) : ℂ) = ((if i = j then 1 else 0 : ℝ) : ℂ) := by rw [this]
    push_cast at h2
    rw [h2]
    split_ifs <;> simp
  have key : ![(M'.mulVec (turn Q u)).x, (M'.mulVec (turn Q u)).y, (M'.mulVec (turn Q u)).z] =
      ![(turn Q (M.mulVec u)).x, (turn Q (M.mulVec u)).y, (turn Q (M.mulVec u)).z] := by
    rw [hm, hq, hq, hm, ht, Matrix.mulVec_mulVec, Matrix.mulVec_mulVec, mul_assoc, mul_assoc, ho, mul_one]
  ext
  · exact congrFun key 0
  · exact congrFun key 1
  · exact congrFun key 2

theorem c2t_link {Q : Matrix (Fin 3) (Fin 3) ℝ} {k k' : KData} {a b c e : ℝ} (hl : Link Q k k' a b c e) (h1 : a * a + c * c = 1)
    (h2 : b * b + e * e = 1) (h3 : a * b + c * e = 0) (v : V3 ℂ) (s : ℝ) : c2t k' (turn Q v) s = ortho h1 h2 h3 (c2t k v s) := by
  rw [ortho_apply]
  have m1 := hl.m'
  have n1 := hl.n'
  have mx := congrArg V3.x m1; have my := congrArg V3.y m1; have mz := congrArg V3.z m1
  have nx := congrArg V3.x n1; have ny := congrArg V3.y n1; have nz := congrArg V3.z n1
  simp only [app, Matrix.transpose_apply, V3.add_x, V3.add_y, V3.add_z, V3.smul_x, V3.smul_y, V3.smul_z] at mx my mz nx ny nz
  refine Prod.ext ?_ ?_ <;> apply Complex.ext <;> simp [c2t, turn]
  · linear_combination s * (v.x.re * mx + v.y.re * my + v.z.re * mz)
  · linear_combination s * (v.x.im * mx + v.y.im * my + v.z.im * mz)
  · linear_combination s * (v.x.re * nx + v.y.re * ny + v.z.re * nz)
  · linear_combination s * (v.x.im * nx + v.y.im * ny + v.z.im * nz)

/-- C97, in part.  The orientation of the structure in space does not matter: for every grid, lattice, wavevector, permittivity and every
orthogonal matrix (rotations and reflections), turning lattice and tensors together gives a problem with the same frequencies with the
same multiplicities, and modes that correspond one to one.  Without permeability, or with one at wavevectors where no `k + G` vanishes;
with a permeability and a vanishing `k + G` the two directions kept for that planewave are fixed in space and the statement is missing. -/
theorem C97_rotation_partial {Q : Matrix (Fin 3) (Fin 3) ℝ} (hQ : Q.transpose * Q = 1) {P P' : Problem} (h : Rotated Q P P')
    (h0 : P.muInv = none ∨ ∀ x < P.nx, ∀ y < P.ny, ∀ z < P.nz, P.wave x y z ≠ ⟨0, 0, 0⟩) : SameModes P.data P'.data 1 := by
  classical
  obtain ⟨nx, ny, nz, nfb, Rm, kk, e', m'⟩ := P'
  obtain ⟨h1, h2, h3, h4, h5, h6, he, hm⟩ := h
  dsimp only at h1 h2 h3 h4 h5 h6 he hm
  subst h1 h2 h3 h4 h5 h6
  set P' : Problem := ⟨P.nx, P.ny, P.nz, P.nfb, rotated Q P.Rm, P.k, e', m'⟩ with hP'
  obtain ⟨K, hK, hw⟩ := data_isBasis P
  have hK' : ∀ G < P.data.N, IsBasis (app Q (K G)) (P'.data.kpg G) := by
    intro G hG
    obtain ⟨x, hx, y, hy, z, hz, rfl⟩ := index3 (nx := P.nx) (ny := P.ny) (nz := P.nz) hG
    have e1 : P'.wave x y z = app Q (P.wave x y z) := by
      show waveVec _ _ _ _ _ = _
      rw [show P'.Rm = rotated Q P.Rm from rfl, latticeGm_rotated hQ]
      exact waveVec_rotated _ _ _ _
    rw [hw x hx y hy z hz, ← e1]
    exact data_kpg P' hx hy hz ▸ kData_isBasis _
  have hex : ∀ G, ∃ t : ℝ × ℝ × ℝ × ℝ, (t.1 * t.1 + t.2.2.1 * t.2.2.1 = 1 ∧ t.2.1 * t.2.1 + t.2.2.2 * t.2.2.2 = 1 ∧ t.1 * t.2.1 + t.2.2.1 * t.2.2.2 = 0) ∧
      (G < P.data.N → K G ≠ ⟨0, 0, 0⟩ → Link Q (P.data.kpg G) (P'.data.kpg G) t.1 t.2.1 t.2.2.1 t.2.2.2) := by
    intro G
    by_cases hc : G < P.data.N ∧ K G ≠ ⟨0, 0, 0⟩
    · obtain ⟨a, b, c, e, hl, g1, g2, g3⟩ := exists_link hQ (hK G hc.1) (hK' G hc.1) hc.2
      exact ⟨(a, b, c, e), ⟨g1, g2, g3⟩, fun _ _ => hl⟩
    · exact ⟨(1, 0, 0, 1), by norm_num, fun g1 g2 => absurd ⟨g1, g2⟩ hc⟩
  choose t ht hlink using hex
  let F : Frame P.data.N := ⟨Equiv.refl ℕ, fun G => ortho (ht G).1 (ht G).2.1 (ht G).2.2, fun _ => Iff.rfl, fun G v => ortho_norm _ _ _ v⟩
  have hFA : ∀ G, F.A G = ortho (ht G).1 (ht G).2.1 (ht G).2.2 := fun _ => rfl
  have hdet := det_sq hQ
  have hdetC : (Q.det : ℂ) * Q.det = 1 := by exact_mod_cast hdet
  have one3 : ∀ v : V3 ℂ, V3.smul 1 v = v := fun v => by ext <;> simp
  have hk0 : ∀ G < P.data.N, K G = ⟨0, 0, 0⟩ → (P.data.kpg G).kmag = 0 ∧ (P'.data.kpg G).kmag = 0 := by
    intro G hG hz
    have s1 := (hK G hG).kmag_sq
    have s2 := (hK' G hG).kmag_sq
    rw [hz] at s1 s2
    simp [app] at s1 s2
    exact ⟨s1, s2⟩
  have hf : ∀ r < P.data.N, ∀ G < P.data.N, P'.data.Wf r G * 1 = P.data.Wf r G := fun r _ G _ => mul_one _
  have hb : ∀ G < P.data.N, ∀ r < P.data.N, P'.data.Wb G r = 1 * P.data.Wb G r := fun G _ r _ => (one_mul _).symm
  refine sameModes_of_ops (d := P.data) (d' := P'.data) rfl Iff.rfl F (fun x G hG => ?_) ?_
  · refine colOp_frame (d := P.data) (d' := P'.data) rfl F (Equiv.refl ℕ) (fun _ => Iff.rfl) (fun _ => 1) (Q.det • Q) hf hb (fun G hG v => ?_) (fun r hr u => ?_)
      (fun G hG a => ?_) x hG
    · show crossT2c (P'.data.kpg G) _ _ = _
      rw [one3]
      by_cases hz : K G = ⟨0, 0, 0⟩
      · obtain ⟨z1, z2⟩ := hk0 G hG hz
        ext <;> apply Complex.ext <;> simp [crossT2c, turn, z1, z2]
      · rw [C02_curl_t2c _ _ (hK' G hG), C02_curl_t2c _ _ (hK G hG)]
        rw [show ((F.A G v).1, (F.A G v).2) = F.A G v from rfl, hFA, cart_ortho (hlink G hG hz), cross_turn hQ, turn_smulM]
    · show (P'.epsInv r).mulVec _ = _
      rw [turn_smulM, turn_smulM, mulVec_smul, mulVec_turned hQ (he r hr)]
      rfl
    · show crossC2t (P'.data.kpg G) _ _ = _
      rw [one3]
      by_cases hz : K G = ⟨0, 0, 0⟩
      · obtain ⟨z1, z2⟩ := hk0 G hG hz
        have c1 : ∀ a s, crossC2t (P.data.kpg G) a s = 0 := fun a s => by
          refine Prod.ext ?_ ?_ <;> apply Complex.ext <;> simp [crossC2t, z1]
        have c2 : ∀ a s, crossC2t (P'.data.kpg G) a s = 0 := fun a s => by
          refine Prod.ext ?_ ?_ <;> apply Complex.ext <;> simp [crossC2t, z2]
        rw [c1, c2, map_zero]
      · refine cart_injective (hK' G hG) ?_
        rw [C02_curl_c2t _ _ (hK' G hG), hFA, cart_ortho (hlink G hG hz), C02_curl_c2t _ _ (hK G hG), turn_smulM, turn_smul]
        have : V3.cross (toC (app Q (K G))) (V3.smul (Q.det : ℂ) (turn Q a)) = V3.smul (Q.det : ℂ) (V3.cross (toC (app Q (K G))) (turn Q a)) := by
          ext <;> simp only [V3.cross, V3.smul] <;> ring
        rw [this, cross_turn hQ, smul_smul3, smul_smul3, mul_assoc, hdetC, mul_one]
  · rcases hm with ⟨m1, m2⟩ | ⟨mu, mu', m1, m2, hmv⟩
    · exact Or.inl ⟨m1, m2⟩
    · have hne : ∀ G < P.data.N, K G ≠ ⟨0, 0, 0⟩ := by
        rcases h0 with h0 | h0
        · rw [h0] at m1; cases m1
        · intro G hG
          obtain ⟨x, hx, y, hy, z, hz, rfl⟩ := index3 (nx := P.nx) (ny := P.ny) (nz := P.nz) hG
          rw [hw x hx y hy z hz]
          exact h0 x hx y hy z hz
      refine Or.inr ⟨mu, mu', m1, m2, fun x G hG => ?_⟩
      refine colOp_frame (d := P.data) (d' := P'.data) rfl F (Equiv.refl ℕ) (fun _ => Iff.rfl) (fun _ => 1) Q hf hb (fun G hG v => ?_)
        (fun r hr u => mulVec_turned hQ (hmv r hr) u) (fun G hG a => ?_) x hG
      · show t2c (P'.data.kpg G) _ _ = _
        rw [one3, C02_t2c, C02_t2c, show ((F.A G v).1, (F.A G v).2) = F.A G v from rfl, hFA, cart_ortho (hlink G hG (hne G hG))]
      · show c2t (P'.data.kpg G) _ _ = _
        rw [one3, hFA]
        exact c2t_link (hlink G hG (hne G hG)) _ _ _ _ _

/-- Non-vacuity: a quarter turn about the third axis of a crystal with different constants along the three axes. -/
example : (!![0, -1, 0; 1, 0, 0; 0, 0, 1] : Matrix (Fin 3) (Fin 3) ℝ).transpose * !![0, -1, 0; 1, 0, 0; 0, 0, 1] = 1 ∧
    Rotated !![0, -1, 0; 1, 0, 0; 0, 0, 1] ⟨4, 2, 1, 1, ⟨⟨1, 0, 0⟩, ⟨0, 2, 0⟩, ⟨0, 0, 1⟩⟩, ⟨1 / 4, 0, 0⟩, fun _ => ⟨1, 2, 3, 0, 0, 0⟩, none⟩
      ⟨4, 2, 1, 1, ⟨⟨0, 1, 0⟩, ⟨-2, 0, 0⟩, ⟨0, 0, 1⟩⟩, ⟨1 / 4, 0, 0⟩, fun _ => ⟨2, 1, 3, 0, 0, 0⟩, none⟩ := by
  refine ⟨?_, rfl, rfl, rfl, rfl, rfl, ?_, fun r _ => ?_, Or.inl ⟨rfl, rfl⟩⟩
  · ext i j
    rw [Matrix.mul_apply, Fin.sum_univ_three, Matrix.one_apply]
    fin_cases i <;> fin_cases j <;> simp
  · simp [rotated, app]
  · unfold Turned
    ext i j
    simp only [Matrix.mul_apply, Fin.sum_univ_three, Matrix.transpose_apply, Matrix.map_apply]
    fin_cases i <;> fin_cases j <;> simp [Tensor.Spec.toMatrix]

/-! ### Other numbers for the lattice vectors -/

theorem Spec.SameModes.trans {d d' d'' : OpData} {c c' : ℝ} (h : SameModes d d' c) (h' : SameModes d' d'' c') : SameModes d d'' (c' * c) := by
  obtain ⟨hN, U, hU, hm⟩ := h
  obtain ⟨hN', U', hU', hm'⟩ := h'
  refine ⟨hN'.trans hN, U.trans U', fun X => ?_, fun lam X => ?_⟩
  · rw [← hU X, LinearEquiv.trans_apply, ← hN, hU']
  · rw [hm, hm', LinearEquiv.trans_apply, mul_assoc]

/-- The map of the grid points when two directions are exchanged. -/
def swapMap (last : Bool) (n : V3 ℕ) : GridMap n (if last then ⟨n.x, n.z, n.y⟩ else ⟨n.y, n.x, n.z⟩) where
  dir t := if last then (t.1, t.2.2, t.2.1) else (t.2.1, t.1, t.2.2)
  inv t := if last then (t.1, t.2.2, t.2.1) else (t.2.1, t.1, t.2.2)
  size := by
    cases last
    · show n.y * n.x * n.z = n.x * n.y * n.z
      ring
    · show n.x * n.z * n.y = n.x * n.y * n.z
      ring
  toBox t h := by
    obtain ⟨h1, h2, h3⟩ := h
    cases last
    · exact ⟨h2, h1, h3⟩
    · exact ⟨h1, h3, h2⟩
  invBox t h := by
    cases last
    · exact ⟨h.2.1, h.1, h.2.2⟩
    · exact ⟨h.1, h.2.2, h.2.1⟩
  left t h := by cases last <;> rfl
  right t h := by cases last <;> rfl

/-- The frame that only renumbers. -/
def renumber {n n' : V3 ℕ} (m : GridMap n n') (N : ℕ) (hN : N = n.x * n.y * n.z) : Frame N where
  σ := m.perm
  A _ := LinearEquiv.refl ℂ (ℂ × ℂ)
  range G := by rw [hN]; exact m.perm_lt G
  norm _ _ := rfl

theorem latticeGm_swap (R : M3 ℝ) : Velocity.latticeGm ⟨R.c1, R.c0, R.c2⟩ =
    ⟨(Velocity.latticeGm R).c1, (Velocity.latticeGm R).c0, (Velocity.latticeGm R).c2⟩ := by
  have hd : M3.det (⟨R.c1, R.c0, R.c2⟩ : M3 ℝ) = -M3.det R := by simp only [M3.det]; ring
  rw [latticeGm_eq, latticeGm_eq, hd]
  simp only [V3.smul, V3.cross, one_div, inv_neg]
  congr 1 <;> congr 1 <;> ring

theorem latticeGm_swap' (R : M3 ℝ) : Velocity.latticeGm ⟨R.c0, R.c2, R.c1⟩ =
    ⟨(Velocity.latticeGm R).c0, (Velocity.latticeGm R).c2, (Velocity.latticeGm R).c1⟩ := by
  have hd : M3.det (⟨R.c0, R.c2, R.c1⟩ : M3 ℝ) = -M3.det R := by simp only [M3.det]; ring
  rw [latticeGm_eq, latticeGm_eq, hd]
  simp only [V3.smul, V3.cross, one_div, inv_neg]
  congr 1 <;> congr 1 <;> ring

/-- C97, the order of the lattice vectors: for every grid, lattice, wavevector, permittivity and permeability, exchanging the first two or the
last two lattice vectors (with the grid sizes, the components of the wavevector and the axes of the stored arrays) gives a problem with the
same modes, renumbered, and the same frequencies with the same multiplicities; hence so does every reordering
(`Spec.SameModes.trans`). -/
theorem C97_order {last : Bool} {P P' : Problem} (h : Spec.Relisted last P P') : SameModes P.data P'.data 1 := by
  obtain ⟨nx, ny, nz, nfb, Rm, kk, e', m'⟩ := P'
  obtain ⟨h1, h2, h3, h4, he, hm⟩ := h
  dsimp only at h1 h2 h3 h4 he hm
  set n : V3 ℕ := ⟨P.nx, P.ny, P.nz⟩ with hn
  set n' : V3 ℕ := ⟨nx, ny, nz⟩ with hn'
  set P' : Problem := ⟨nx, ny, nz, nfb, Rm, kk, e', m'⟩ with hP'
  obtain ⟨m, hdir⟩ : ∃ m : GridMap n n', ∀ t, m.dir t = if last then (t.1, t.2.2, t.2.1) else (t.2.1, t.1, t.2.2) := by
    rw [h1]; exact ⟨swapMap last n, fun _ => rfl⟩
  have hN : P'.data.N = P.data.N := m.size
  set ρ := m.perm with hρdef
  have hρ : ∀ r, ρ r < P.data.N ↔ r < P.data.N := m.perm_lt
  have hF : ∀ r < P.data.N, ∀ G < P.data.N, P'.data.Wf (ρ r) (ρ G) * 1 = P.data.Wf r G := by
    intro r hr G hG
    obtain ⟨br, cr⟩ := box_coords (n := n) hr
    obtain ⟨bG, cG⟩ := box_coords (n := n) hG
    rw [m.perm_apply hr, m.perm_apply hG, mul_one]
    show dft (-1) n'.x n'.y n'.z _ _ = dft (-1) n.x n.y n.z r G
    conv_rhs => rw [← cr, ← cG]
    rw [dft_neg_cell (m.toBox _ br) (m.toBox _ bG), dft_neg_cell br bG, hdir, hdir, h1]
    cases last
    · simp only [Bool.false_eq_true, if_false]; ring
    · simp only [if_true]; ring
  have hB : ∀ G < P.data.N, ∀ r < P.data.N, P'.data.Wb (ρ G) (ρ r) = 1 * P.data.Wb G r := by
    intro G hG r hr
    obtain ⟨br, cr⟩ := box_coords (n := n) hr
    obtain ⟨bG, cG⟩ := box_coords (n := n) hG
    rw [m.perm_apply hr, m.perm_apply hG, one_mul]
    show dft 1 n'.x n'.y n'.z _ _ = dft 1 n.x n.y n.z G r
    conv_rhs => rw [← cr, ← cG]
    rw [dft_pos_cell (m.toBox _ bG) (m.toBox _ br), dft_pos_cell bG br, hdir, hdir, h1]
    cases last
    · simp only [Bool.false_eq_true, if_false]; ring
    · simp only [if_true]; ring
  have hk : ∀ G < P.data.N, P'.data.kpg (ρ G) = P.data.kpg G := by
    intro G hG
    obtain ⟨bG, cG⟩ := box_coords (n := n) hG
    rw [m.perm_apply hG]
    conv_rhs => rw [← cG]
    have b' := m.toBox _ bG
    have e1 := data_kpg P' b'.1 b'.2.1 b'.2.2
    have e2 := data_kpg P bG.1 bG.2.1 bG.2.2
    rw [show cell n (coords n G) = ((coords n G).1 * P.ny + (coords n G).2.1) * P.nz + (coords n G).2.2 from rfl, e2]
    refine e1.trans ?_
    congr 1
    unfold Problem.wave
    dsimp only
    rw [hdir]
    have h3' : P'.Rm = _ := h3
    have h4' : P'.k = _ := h4
    rw [h3', h4']
    have hx : P'.nx = (if last then (⟨P.nx, P.nz, P.ny⟩ : V3 ℕ) else ⟨P.ny, P.nx, P.nz⟩).x := congrArg V3.x h1
    have hy : P'.ny = (if last then (⟨P.nx, P.nz, P.ny⟩ : V3 ℕ) else ⟨P.ny, P.nx, P.nz⟩).y := congrArg V3.y h1
    have hz : P'.nz = (if last then (⟨P.nx, P.nz, P.ny⟩ : V3 ℕ) else ⟨P.ny, P.nx, P.nz⟩).z := congrArg V3.z h1
    cases last
    · simp only [Bool.false_eq_true, if_false] at hx hy hz ⊢
      rw [latticeGm_swap, hx, hy, hz]
      ext <;> simp only [waveVec, V3.smul, V3.add_x, V3.add_y, V3.add_z] <;> ring
    · simp only [if_true] at hx hy hz ⊢
      rw [latticeGm_swap', hx, hy, hz]
      ext <;> simp only [waveVec, V3.smul, V3.add_x, V3.add_y, V3.add_z] <;> ring
  have hT : ∀ {f f' : ℕ → HMat}, (∀ x < P.nx, ∀ y < P.ny, ∀ z < P.nz, f' (if last then address ⟨P.nx, P.nz, P.ny⟩ x z y else address ⟨P.ny, P.nx, P.nz⟩ y x z) =
      f (address ⟨P.nx, P.ny, P.nz⟩ x y z)) → ∀ r < P.data.N, ∀ u, (f' (ρ r)).mulVec (turn 1 u) = turn 1 ((f r).mulVec u) := by
    intro f f' hmv r hr u
    obtain ⟨br, cr⟩ := box_coords (n := n) hr
    have := hmv _ br.1 _ br.2.1 _ br.2.2
    rw [turn_one, turn_one, m.perm_apply hr, hdir]
    have e2 : address ⟨P.nx, P.ny, P.nz⟩ (coords n r).1 (coords n r).2.1 (coords n r).2.2 = r := cr
    rw [e2] at this
    rw [← this, h1]
    cases last <;> rfl
  have one3 : ∀ v : V3 ℂ, V3.smul 1 v = v := fun v => by ext <;> simp
  refine sameModes_of_ops (d := P.data) (d' := P'.data) hN (by rw [show P'.data.nfb = P.data.nfb from h2]) (renumber m P.data.N rfl) (fun x G hG => ?_) ?_
  · unfold bandOp
    rw [hN]
    refine colOp_frame (d := P.data) (d' := P'.data) hN (renumber m P.data.N rfl) ρ hρ (fun _ => 1) 1 hF hB (fun G hG v => ?_) (hT he) (fun G hG a => ?_) x hG
    · rw [turn_one, one3]
      show crossT2c (P'.data.kpg (ρ G)) _ _ = _
      rw [hk G hG]; rfl
    · rw [turn_one, one3]
      show crossC2t (P'.data.kpg (ρ G)) _ _ = _
      rw [hk G hG]; rfl
  · rcases hm with ⟨m1, m2⟩ | ⟨mu, mu', m1, m2, hmv⟩
    · exact Or.inl ⟨m1, m2⟩
    · refine Or.inr ⟨mu, mu', m1, m2, fun x G hG => ?_⟩
      unfold bandMu
      rw [hN]
      refine colOp_frame (d := P.data) (d' := P'.data) hN (renumber m P.data.N rfl) ρ hρ (fun _ => 1) 1 hF hB (fun G hG v => ?_) (hT hmv) (fun G hG a => ?_) x hG
      · rw [turn_one, one3]
        show t2c (P'.data.kpg (ρ G)) _ _ = _
        rw [hk G hG]; rfl
      · rw [turn_one, one3]
        show c2t (P'.data.kpg (ρ G)) _ _ = _
        rw [hk G hG]; rfl

/-- Non-vacuity: a 2 x 3 x 1 grid and the same with the first two directions exchanged. -/
example : Spec.Relisted false ⟨2, 3, 1, 1, ⟨⟨1, 0, 0⟩, ⟨0, 2, 0⟩, ⟨0, 0, 1⟩⟩, ⟨1 / 4, 0, 0⟩, fun r => ⟨(r % 3 : ℕ) + 1, 1, 1, 0, 0, 0⟩, none⟩
    ⟨3, 2, 1, 1, ⟨⟨0, 2, 0⟩, ⟨1, 0, 0⟩, ⟨0, 0, 1⟩⟩, ⟨0, 1 / 4, 0⟩, fun r => ⟨(r / 2 : ℕ) + 1, 1, 1, 0, 0, 0⟩, none⟩ := by
  refine ⟨rfl, rfl, rfl, rfl, fun x hx y hy z hz => ?_, Or.inl ⟨rfl, rfl⟩⟩
  dsimp only at hx hy hz
  have h1 : (x * 3 + y) % 3 = y := by omega
  have h2 : (y * 2 + x) / 2 = y := by omega
  have hz0 : z = 0 := by omega
  subst hz0
  simp [address, h1, h2]

end Mpb.Invariance

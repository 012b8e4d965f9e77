import Verif.Tensor.Lemmas

/-!
# Dielectric tensors: lemmas on inversion, averaging and the grid loop
-/

namespace Mpb.Tensor
open Matrix Spec

theorem toMatrix_star (V : HMat) : (toMatrix V)ᴴ = toMatrix V := by
  ext i j
  fin_cases i <;> fin_cases j <;> simp [toMatrix]

/-- The inverse of a positive definite tensor is positive definite. -/
theorem posDef_inv {V W : HMat} (h : PosDef V) (hVW : toMatrix V * toMatrix W = 1) : PosDef W := by
  intro v hv
  have h1 : toMatrix V *ᵥ (toMatrix W *ᵥ v) = v := by rw [Matrix.mulVec_mulVec, hVW, Matrix.one_mulVec]
  have hw : toMatrix W *ᵥ v ≠ 0 := by
    intro h0
    rw [h0, Matrix.mulVec_zero] at h1
    exact hv h1.symm
  have h2 := h _ hw
  have h3 : star v ⬝ᵥ (toMatrix W *ᵥ v) = star (toMatrix W *ᵥ v) ⬝ᵥ (toMatrix V *ᵥ (toMatrix W *ᵥ v)) := by
    have h4 : star v = star (toMatrix W *ᵥ v) ᵥ* toMatrix V := by
      conv_lhs => rw [← h1]
      rw [Matrix.star_mulVec, toMatrix_star]
    conv_lhs => rw [h4]
    rw [← Matrix.dotProduct_mulVec]
  rw [h3]
  exact h2

theorem hInvert_ok {V W : HMat} (h : hInvert V = .ok W) : toMatrix V * toMatrix W = 1 := by
  classical
  unfold hInvert at h
  split at h
  · rename_i hd
    obtain ⟨a1, a2, b1, b2, c1, c2⟩ := hd
    split at h
    · cases h
    · rename_i hne
      push Not at hne
      have := Res.ok_inj h
      subst this
      have e1 : V.m01 = 0 := Complex.ext a1 a2
      have e2 : V.m02 = 0 := Complex.ext b1 b2
      have e3 : V.m12 = 0 := Complex.ext c1 c2
      obtain ⟨n0, n1, n2⟩ := hne
      have n0' : (V.m00 : ℂ) ≠ 0 := by exact_mod_cast n0
      have n1' : (V.m11 : ℂ) ≠ 0 := by exact_mod_cast n1
      have n2' : (V.m22 : ℂ) ≠ 0 := by exact_mod_cast n2
      ext i j
      fin_cases i <;> fin_cases j <;>
        simp [toMatrix, Matrix.mul_apply, Fin.sum_univ_three, e1, e2, e3, n0', n1', n2']
  · split at h
    · cases h
    · rename_i hdet
      have := Res.ok_inj h
      subst this
      have hdet' : 1 / hDet V * hDet V = 1 := by field_simp
      generalize 1 / hDet V = d at hdet' ⊢
      unfold hDet nsq at hdet'
      ext i j
      fin_cases i <;> fin_cases j <;>
        (simp only [toMatrix, Matrix.mul_apply, Fin.sum_univ_three, nsq, Matrix.of_apply, Matrix.cons_val',
          Matrix.cons_val_zero, Matrix.cons_val_one, Matrix.cons_val, Fin.zero_eta, Fin.mk_one, Fin.reduceFinMk]
         apply Complex.ext <;> simp <;> first | linear_combination hdet' | ring)

theorem hInvert_of_det {V : HMat} (h : (toMatrix V).det ≠ 0) : ∃ W, hInvert V = .ok W := by
  classical
  have hd : hDet V ≠ 0 := by
    rw [det_toMatrix] at h
    exact_mod_cast h
  unfold hInvert
  split
  · rename_i hz
    obtain ⟨a1, a2, b1, b2, c1, c2⟩ := hz
    have : hDet V = V.m00 * V.m11 * V.m22 := by simp [hDet, nsq, a1, a2, b1, b2, c1, c2]
    rw [this] at hd
    rw [if_neg]
    · exact ⟨_, rfl⟩
    · rintro (h | h | h) <;> simp [h] at hd
  · exact ⟨_, rfl⟩

theorem posDef_det {V : HMat} (h : PosDef V) : (toMatrix V).det ≠ 0 := by
  rw [det_toMatrix]
  have := (hPosDef_iff V).mpr h
  simp only [hPosDef, decide_eq_true_eq] at this
  obtain ⟨_, _, h3⟩ := this
  have : hDet V ≠ 0 := by
    unfold hDet
    intro h0
    linarith
  exact_mod_cast this

theorem posDef_hAdd {a b : HMat} (ha : PosDef a) (hb : PosDef b) : PosDef (hAdd a b) := by
  rw [posDef_iff_quad] at *
  intro x y z h
  have : quad (hAdd a b) x y z = quad a x y z + quad b x y z := by simp only [quad, hAdd]; ring
  rw [this]
  exact add_pos (ha x y z h) (hb x y z h)

theorem posDef_hScale {a : HMat} (ha : PosDef a) {t : ℝ} (ht : 0 < t) : PosDef (hScale t a) := by
  rw [posDef_iff_quad] at *
  intro x y z h
  have : quad (hScale t a) x y z = quad a x y z * t := by simp only [quad, hScale]; ring
  rw [this]
  exact mul_pos (ha x y z h) ht

/-- An accumulated sum over a non-empty list keeps any property that is kept by addition. -/
theorem foldl_hAdd_mem {α : Type*} (P : HMat → Prop) (hP : ∀ a b, P a → P b → P (hAdd a b)) (f : α → HMat) :
    ∀ (l : List α), l ≠ [] → (∀ x ∈ l, P (f x)) → P (l.foldl (fun t q => hAdd t (f q)) hZero) := by
  intro l hl h
  cases l with
  | nil => exact absurd rfl hl
  | cons x l =>
    rw [List.foldl_cons, zero_hAdd]
    have hx := h x (by simp)
    have h' : ∀ y ∈ l, P (f y) := fun y hy => h y (by simp [hy])
    clear hl h
    generalize f x = s at hx
    induction l generalizing s with
    | nil => exact hx
    | cons y l ih =>
      rw [List.foldl_cons]
      exact ih (fun z hz => h' z (by simp [hz])) _ (hP _ _ hx (h' y (by simp)))

theorem hScale_hAdd_const {α : Type*} (m : HMat) (l : List α) (h : l ≠ []) :
    hScale (1 / (l.length : ℝ)) (l.foldl (fun t _ => hAdd t m) hZero) = m := by
  have key : ∀ (l : List α) (k : ℝ), l.foldl (fun t _ => hAdd t m) (hScale k m) = hScale (k + l.length) m := by
    intro l
    induction l with
    | nil => intro k; simp
    | cons x l ih =>
      intro k
      rw [List.foldl_cons]
      have : hAdd (hScale k m) m = hScale (k + 1) m := by
        unfold hAdd hScale
        ext
        · ring
        · ring
        · ring
        all_goals (apply Complex.ext <;> simp only <;> ring)
      rw [this, ih]
      congr 1
      push_cast [List.length_cons]
      ring
  have h2 := key l 0
  rw [hScale_zero] at h2
  rw [h2, zero_add]
  have hl : (l.length : ℝ) ≠ 0 := by
    have : l.length ≠ 0 := by simpa using h
    exact_mod_cast this
  unfold hScale
  ext
  · field_simp
  · field_simp
  · field_simp
  all_goals (apply Complex.ext <;> simp only <;> field_simp)

theorem averageEpsInv_eq (epsilon : V3 ℝ → HMat × HMat) (ms : V3 ℤ) (s r : V3 ℝ) (p : ℝ) :
    averageEpsInv epsilon ms s r p = hScale p ((meshPoints ms s r).foldl (fun a q => hAdd a (epsilon q).2) hZero) := by
  classical
  unfold averageEpsInv
  dsimp only
  split
  · rename_i h
    obtain ⟨h1, h2, h3⟩ := h
    unfold hScale
    rw [h1, h2, h3]
    ext <;> simp
    all_goals rfl
  · rfl

theorem prod_getMesh {ms : V3 ℤ} (hx : 1 ≤ ms.x) (hy : 1 ≤ ms.y) (hz : 1 ≤ ms.z) :
    ((getMesh ms).2 : ℤ) = ms.x * ms.y * ms.z := by
  simp only [getMesh, max_eq_left hx, max_eq_left hy, max_eq_left hz, one_mul]

theorem length_meshPoints {ms : V3 ℤ} (hx : 1 ≤ ms.x) (hy : 1 ≤ ms.y) (hz : 1 ≤ ms.z) (s r : V3 ℝ) :
    ((meshPoints ms s r).length : ℤ) = (getMesh ms).2 := by
  rw [prod_getMesh hx hy hz]
  unfold meshPoints
  rw [List.length_map, length_loop3]
  push_cast
  rw [Int.toNat_of_nonneg (by omega), Int.toNat_of_nonneg (by omega), Int.toNat_of_nonneg (by omega)]

theorem meshPoints_ne_nil {ms : V3 ℤ} (hx : 1 ≤ ms.x) (hy : 1 ≤ ms.y) (hz : 1 ≤ ms.z) (s r : V3 ℝ) :
    meshPoints ms s r ≠ [] := by
  intro h
  have h1 := length_meshPoints hx hy hz s r
  rw [h, prod_getMesh hx hy hz] at h1
  simp at h1
  have : 0 < ms.x * ms.y * ms.z := by positivity
  rcases h1 with (h1 | h1) | h1 <;> omega

theorem prodInv_eq {ms : V3 ℤ} (hx : 1 ≤ ms.x) (hy : 1 ≤ ms.y) (hz : 1 ≤ ms.z) (s r : V3 ℝ) :
    (1 : ℝ) / ((getMesh ms).2 : ℝ) = 1 / ((meshPoints ms s r).length : ℝ) := by
  have h1 := length_meshPoints hx hy hz s r
  rw [← h1]
  simp

theorem prodInv_pos {ms : V3 ℤ} (hx : 1 ≤ ms.x) (hy : 1 ≤ ms.y) (hz : 1 ≤ ms.z) :
    (0 : ℝ) < 1 / ((getMesh ms).2 : ℝ) := by
  have h1 := prod_getMesh hx hy hz
  have : (0 : ℤ) < (getMesh ms).2 := by rw [h1]; positivity
  have : (0 : ℝ) < ((getMesh ms).2 : ℝ) := by exact_mod_cast this
  positivity

theorem unit_normalize {n : V3 ℝ} (h : Real.sqrt (n.x * n.x + n.y * n.y + n.z * n.z) ≠ 0) :
    Spec.Unit ⟨n.x * (1 / Real.sqrt (n.x * n.x + n.y * n.y + n.z * n.z)),
      n.y * (1 / Real.sqrt (n.x * n.x + n.y * n.y + n.z * n.z)),
      n.z * (1 / Real.sqrt (n.x * n.x + n.y * n.y + n.z * n.z))⟩ := by
  have h0 : 0 ≤ n.x * n.x + n.y * n.y + n.z * n.z := by
    have := mul_self_nonneg n.x
    have := mul_self_nonneg n.y
    have := mul_self_nonneg n.z
    linarith
  have hsq := Real.mul_self_sqrt h0
  unfold Spec.Unit
  dsimp only
  generalize Real.sqrt (n.x * n.x + n.y * n.y + n.z * n.z) = s at h hsq
  field_simp
  nlinarith

theorem swap_orthonormal {R : M3 ℝ} (h : (rows R)ᵀ * rows R = 1) : (rows (swapRot R))ᵀ * rows (swapRot R) = 1 := by
  rw [rows_swapRot, Matrix.transpose_transpose]
  exact mul_eq_one_comm.mp h

theorem rotate_back {R : M3 ℝ} (h : (rows R)ᵀ * rows R = 1) (A : HMat) : hRotate (hRotate A R) (swapRot R) = A := by
  apply toMatrix_inj
  rw [toMatrix_hRotate, toMatrix_hRotate, rows_swapRot]
  have h' : rows R * (rows R)ᵀ = 1 := mul_eq_one_comm.mp h
  have e1 : ((rows R)ᵀ.map (fun x : ℝ => (x : ℂ)))ᵀ * ((rows R).map (fun x : ℝ => (x : ℂ)))ᵀ = 1 := by
    rw [← Matrix.transpose_map, ← Matrix.transpose_map, ← map_ofReal_mul, Matrix.transpose_transpose, h', map_ofReal_one]
  have e2 : (rows R).map (fun x : ℝ => (x : ℂ)) * (rows R)ᵀ.map (fun x : ℝ => (x : ℂ)) = 1 := by
    rw [← map_ofReal_mul, h', map_ofReal_one]
  calc _ = (((rows R)ᵀ.map (fun x : ℝ => (x : ℂ)))ᵀ * ((rows R).map (fun x : ℝ => (x : ℂ)))ᵀ) * toMatrix A *
        ((rows R).map (fun x : ℝ => (x : ℂ)) * (rows R)ᵀ.map (fun x : ℝ => (x : ℂ))) := by
          simp only [Matrix.mul_assoc]
    _ = toMatrix A := by rw [e1, e2, Matrix.one_mul, Matrix.mul_one]

/-- The loop over the grid stores every value and accumulates the traces. -/
theorem dielLoop_spec (val : ℕ → ℕ → ℕ → Res HMat) (n2 n3 : ℕ) :
    ∀ (l : List (ℕ × ℕ × ℕ)) (st : (ℕ → HMat) × ℝ) (out : (ℕ → HMat) × ℝ), dielLoop val n2 n3 l st = .ok out →
      ∃ f : ℕ × ℕ × ℕ → HMat, (∀ t ∈ l, val t.1 t.2.1 t.2.2 = .ok (f t)) ∧
        out.1 = writes (l.map fun t => ((t.1 * n2 + t.2.1) * n3 + t.2.2, f t)) st.1 ∧
        out.2 = st.2 + (l.map fun t => (f t).m00 + (f t).m11 + (f t).m22).sum := by
  classical
  have fdef : ∀ t : ℕ × ℕ × ℕ, ∃ m, ∀ m', val t.1 t.2.1 t.2.2 = .ok m' → m = m' := by
    intro t
    cases h : val t.1 t.2.1 t.2.2 with
    | ok m => exact ⟨m, fun m' hm => Res.ok_inj hm⟩
    | checkFailed => exact ⟨hZero, fun m' hm => by cases hm⟩
    | nonFinite => exact ⟨hZero, fun m' hm => by cases hm⟩
  choose f hf using fdef
  intro l
  induction l with
  | nil =>
    intro st out h
    simp only [dielLoop] at h
    have := Res.ok_inj h
    subst this
    exact ⟨f, by simp, by simp [writes], by simp⟩
  | cons t l ih =>
    intro st out h
    obtain ⟨i, j, k⟩ := t
    simp only [dielLoop] at h
    split at h
    · rename_i m hm
      obtain ⟨g, hg, h1, h2⟩ := ih _ _ h
      refine ⟨fun t => if t ∈ l then g t else f t, ?_, ?_, ?_⟩
      · intro t ht
        by_cases hl : t ∈ l
        · simp [hl, hg t hl]
        · simp only [hl, if_false]
          rcases List.mem_cons.mp ht with rfl | h3
          · simp only at hm ⊢
            rw [hm, hf (i, j, k) m hm]
          · exact absurd h3 hl
      · have e : ∀ t ∈ l, (if t ∈ l then g t else f t) = g t := fun t ht => by simp [ht]
        have hm' : (if (i, j, k) ∈ l then g (i, j, k) else f (i, j, k)) = m := by
          by_cases hl : (i, j, k) ∈ l
          · simp only [hl, if_true]
            have := hg _ hl
            simp only at this
            rw [hm] at this
            exact (Res.ok_inj this).symm
          · simp only [hl, if_false]
            exact hf (i, j, k) m hm
        rw [h1]
        simp only [List.map_cons, writes_cons, hm']
        congr 1
        apply List.map_congr_left
        intro t ht
        simp [ht]
      · have hm' : (if (i, j, k) ∈ l then g (i, j, k) else f (i, j, k)) = m := by
          by_cases hl : (i, j, k) ∈ l
          · simp only [hl, if_true]
            have := hg _ hl
            simp only at this
            rw [hm] at this
            exact (Res.ok_inj this).symm
          · simp only [hl, if_false]
            exact hf (i, j, k) m hm
        rw [h2]
        simp only [List.map_cons, List.sum_cons, hm']
        have : l.map (fun t => (if t ∈ l then g t else f t).m00 + (if t ∈ l then g t else f t).m11 +
            (if t ∈ l then g t else f t).m22) = l.map (fun t => (g t).m00 + (g t).m11 + (g t).m22) := by
          apply List.map_congr_left
          intro t ht
          simp [ht]
        rw [this]
        ring
    · cases h
    · cases h

/-- If every grid point has a value the loop finishes. -/
theorem dielLoop_total (val : ℕ → ℕ → ℕ → Res HMat) (n2 n3 : ℕ) :
    ∀ (l : List (ℕ × ℕ × ℕ)) (st : (ℕ → HMat) × ℝ), (∀ t ∈ l, ∃ m, val t.1 t.2.1 t.2.2 = .ok m) →
      ∃ out, dielLoop val n2 n3 l st = .ok out := by
  intro l
  induction l with
  | nil => intro st _; exact ⟨st, rfl⟩
  | cons t l ih =>
    intro st h
    obtain ⟨i, j, k⟩ := t
    obtain ⟨m, hm⟩ := h (i, j, k) (by simp)
    simp only at hm
    simp only [dielLoop, hm]
    exact ih _ (fun t ht => h t (by simp [ht]))

end Mpb.Tensor

import Verif.Moment.Spec
import Verif.Tensor.Interface

/-!
# Turned tensors

The Kottke average of turned tensors about the turned normal is the turned average.
-/

namespace Mpb.Moment
open Mpb.Tensor Mpb.Tensor.Spec Matrix

abbrev Mat3 := Matrix (Fin 3) (Fin 3) ℝ

/-- A real matrix as a complex one. -/
noncomputable abbrev cm (Q : Mat3) : Matrix (Fin 3) (Fin 3) ℂ := Q.map (fun x : ℝ => (x : ℂ))

/-- The array with the given entries. -/
def ofRows (W : Mat3) : M3 ℝ := ⟨⟨W 0 0, W 1 0, W 2 0⟩, ⟨W 0 1, W 1 1, W 2 1⟩, ⟨W 0 2, W 1 2, W 2 2⟩⟩

theorem rows_ofRows (W : Mat3) : rows (ofRows W) = W := by
  ext i j
  fin_cases i <;> fin_cases j <;> rfl

theorem ofRows_rows (R : M3 ℝ) : ofRows (rows R) = R := rfl

/-- `Wᵀ e W`. -/
noncomputable def rotM (e : HMat) (W : Mat3) : HMat := hRotate e (ofRows W)

theorem hRotate_eq (e : HMat) (R : M3 ℝ) : hRotate e R = rotM e (rows R) := rfl

theorem toMatrix_rotM (e : HMat) (W : Mat3) : toMatrix (rotM e W) = (cm W)ᵀ * toMatrix e * cm W := by
  unfold rotM
  rw [toMatrix_hRotate, rows_ofRows]

theorem cm_mul (A B : Mat3) : cm (A * B) = cm A * cm B := map_ofReal_mul A B

theorem cm_transpose (A : Mat3) : cm Aᵀ = (cm A)ᵀ := rfl

theorem rotM_mul (e : HMat) (A B : Mat3) : rotM (rotM e A) B = rotM e (A * B) := by
  apply toMatrix_inj
  rw [toMatrix_rotM, toMatrix_rotM, toMatrix_rotM, cm_mul, Matrix.transpose_mul]
  simp only [Matrix.mul_assoc]

theorem rotM_one (e : HMat) : rotM e 1 = e := by
  apply toMatrix_inj
  rw [toMatrix_rotM]
  have : cm 1 = 1 := map_ofReal_one
  rw [this, Matrix.transpose_one, Matrix.one_mul, Matrix.mul_one]

theorem turned_iff (Q : Mat3) (e e' : HMat) : Turned Q e e' ↔ e' = rotM e Qᵀ := by
  unfold Turned
  constructor
  · intro h
    apply toMatrix_inj
    rw [h, toMatrix_rotM, cm_transpose, Matrix.transpose_transpose]
  · rintro rfl
    rw [toMatrix_rotM, cm_transpose, Matrix.transpose_transpose]

theorem rotM_hAdd (a b : HMat) (W : Mat3) : rotM (hAdd a b) W = hAdd (rotM a W) (rotM b W) := by
  apply toMatrix_inj
  rw [toMatrix_rotM, toMatrix_add, toMatrix_add, toMatrix_rotM, toMatrix_rotM, Matrix.mul_add, Matrix.add_mul]

theorem rotM_hScale (t : ℝ) (a : HMat) (W : Mat3) : rotM (hScale t a) W = hScale t (rotM a W) := by
  apply toMatrix_inj
  rw [toMatrix_rotM, toMatrix_scale, toMatrix_scale, toMatrix_rotM, Matrix.mul_smul, Matrix.smul_mul]

theorem rotM_hZero (W : Mat3) : rotM hZero W = hZero := by
  apply toMatrix_inj
  rw [toMatrix_rotM, toMatrix_zero, Matrix.mul_zero, Matrix.zero_mul]

/-- A matrix that keeps the first axis, up to its sense, and the plane of the other two. -/
structure Block (V : Mat3) : Prop where
  h00 : V 0 0 = 1 ∨ V 0 0 = -1
  h01 : V 0 1 = 0
  h02 : V 0 2 = 0
  h10 : V 1 0 = 0
  h20 : V 2 0 = 0

theorem rotM_entries (e : HMat) (V : Mat3) (h : Block V) :
    rotM e V = ⟨e.m00, V 1 1 * V 1 1 * e.m11 + 2 * V 1 1 * V 2 1 * e.m12.re + V 2 1 * V 2 1 * e.m22,
      V 1 2 * V 1 2 * e.m11 + 2 * V 1 2 * V 2 2 * e.m12.re + V 2 2 * V 2 2 * e.m22,
      ⟨V 0 0 * (V 1 1 * e.m01.re + V 2 1 * e.m02.re), V 0 0 * (V 1 1 * e.m01.im + V 2 1 * e.m02.im)⟩,
      ⟨V 0 0 * (V 1 2 * e.m01.re + V 2 2 * e.m02.re), V 0 0 * (V 1 2 * e.m01.im + V 2 2 * e.m02.im)⟩,
      ⟨V 1 1 * V 1 2 * e.m11 + (V 1 1 * V 2 2 + V 2 1 * V 1 2) * e.m12.re + V 2 1 * V 2 2 * e.m22, (V 1 1 * V 2 2 - V 2 1 * V 1 2) * e.m12.im⟩⟩ := by
  unfold rotM hRotate rotateMem rotatePass ofRows
  simp only [Function.update_self, h.h01, h.h02, h.h10, h.h20]
  rcases h.h00 with h0 | h0 <;> rw [h0] <;> ext <;> first | (apply Complex.ext <;> dsimp only <;> ring) | (dsimp only <;> ring)

theorem tau_block (e : HMat) (V : Mat3) (h : Block V) : tau (rotM e V) = rotM (tau e) V := by
  rw [rotM_entries e V h, rotM_entries _ V h]
  unfold tau mulConj nsq
  dsimp only
  rcases h.h00 with h0 | h0 <;> rw [h0] <;> ext <;> first | (apply Complex.ext <;> dsimp only <;> ring) | (dsimp only <;> ring)

theorem untau_block (e : HMat) (V : Mat3) (h : Block V) : untau (rotM e V) = rotM (untau e) V := by
  rw [rotM_entries e V h, rotM_entries _ V h]
  unfold untau mulConj nsq
  dsimp only
  rcases h.h00 with h0 | h0 <;> rw [h0] <;> ext <;> first | (apply Complex.ext <;> dsimp only <;> ring) | (dsimp only <;> ring)

theorem block_of_frames {U U' : Mat3} (hU : Uᵀ * U = 1) (hU' : U'ᵀ * U' = 1) {s : ℝ} (hs : s = 1 ∨ s = -1) (hc : ∀ i, U' i 0 = s * U i 0) :
    Block (Uᵀ * U') := by
  have hss : s * s = 1 := by rcases hs with rfl | rfl <;> norm_num
  have e1 : ∀ i, (Uᵀ * U') i 0 = s * (Uᵀ * U) i 0 := by
    intro i
    simp only [Matrix.mul_apply, Matrix.transpose_apply, hc, Finset.mul_sum]
    exact Finset.sum_congr rfl fun k _ => by ring
  have e2 : ∀ j, (Uᵀ * U') 0 j = s * (U'ᵀ * U') 0 j := by
    intro j
    simp only [Matrix.mul_apply, Matrix.transpose_apply, hc, Finset.mul_sum]
    exact Finset.sum_congr rfl fun k _ => by rw [← mul_assoc, ← mul_assoc, hss, one_mul]
  constructor
  · rw [e1, hU, Matrix.one_apply_eq, mul_one]; exact hs
  · rw [e2, hU', Matrix.one_apply_ne (by decide), mul_zero]
  · rw [e2, hU', Matrix.one_apply_ne (by decide), mul_zero]
  · rw [e1, hU, Matrix.one_apply_ne (by decide), mul_zero]
  · rw [e1, hU, Matrix.one_apply_ne (by decide), mul_zero]

theorem foldl_rotM {α : Type*} (f g : α → HMat) (V : Mat3) : ∀ (l : List α) (t : HMat), (∀ q ∈ l, g q = rotM (f q) V) →
    l.foldl (fun t q => hAdd t (g q)) (rotM t V) = rotM (l.foldl (fun t q => hAdd t (f q)) t) V := by
  intro l
  induction l with
  | nil => intro t _; rfl
  | cons q l ih =>
    intro t h
    rw [List.foldl_cons, List.foldl_cons, h q (by simp), ← rotM_hAdd]
    exact ih _ fun q' hq' => h q' (List.mem_cons_of_mem _ hq')

/-- The average of a list of tensors in the frame `U`, as maxwell_eps.c computes it (before the final inversion). -/
noncomputable def frameMean {α : Type*} (U : Mat3) (t : ℝ) (f : α → HMat) (l : List α) : HMat :=
  rotM (untau (hScale t (l.foldl (fun s q => hAdd s (tau (rotM (f q) U))) hZero))) Uᵀ

/-- It depends on the first axis of the frame only, and not on its sense. -/
theorem frameMean_indep {α : Type*} {U U' : Mat3} (hU : Uᵀ * U = 1) (hU' : U'ᵀ * U' = 1) {s : ℝ} (hs : s = 1 ∨ s = -1) (hc : ∀ i, U' i 0 = s * U i 0)
    (t : ℝ) (f : α → HMat) (l : List α) : frameMean U' t f l = frameMean U t f l := by
  have hb := block_of_frames hU hU' hs hc
  have hUU : U * Uᵀ = 1 := mul_eq_one_comm.mp hU
  have hUU' : U' * U'ᵀ = 1 := mul_eq_one_comm.mp hU'
  have hV : U * (Uᵀ * U') = U' := by rw [← Matrix.mul_assoc, hUU, Matrix.one_mul]
  unfold frameMean
  have h1 : l.foldl (fun s q => hAdd s (tau (rotM (f q) U'))) hZero = rotM (l.foldl (fun s q => hAdd s (tau (rotM (f q) U))) hZero) (Uᵀ * U') := by
    have := foldl_rotM (fun q => tau (rotM (f q) U)) (fun q => tau (rotM (f q) U')) (Uᵀ * U') l hZero (fun q _ => by
      rw [← tau_block _ _ hb, rotM_mul, hV])
    rwa [rotM_hZero] at this
  rw [h1, ← rotM_hScale, untau_block _ _ hb, rotM_mul, Matrix.mul_assoc, hUU', Matrix.mul_one]

/-- Turning the tensors and the frame turns the average. -/
theorem frameMean_turn {α : Type*} {U Q : Mat3} (hQ : Qᵀ * Q = 1) (t : ℝ) (f g : α → HMat) (l : List α) (h : ∀ q ∈ l, Turned Q (f q) (g q)) :
    frameMean (Q * U) t g l = rotM (frameMean U t f l) Qᵀ := by
  unfold frameMean
  rw [rotM_mul, Matrix.transpose_mul]
  congr 3
  have : ∀ (l : List α) (z : HMat), (∀ q ∈ l, Turned Q (f q) (g q)) →
      l.foldl (fun s q => hAdd s (tau (rotM (g q) (Q * U)))) z = l.foldl (fun s q => hAdd s (tau (rotM (f q) U))) z := by
    intro l
    induction l with
    | nil => intro z _; rfl
    | cons q l ih =>
      intro z h
      rw [List.foldl_cons, List.foldl_cons, (turned_iff _ _ _).mp (h q (by simp)), rotM_mul, ← Matrix.mul_assoc, hQ, Matrix.one_mul]
      exact ih _ fun q' hq' => h q' (List.mem_cons_of_mem _ hq')
  exact this l _ h

/-- Sums of tensors do not depend on the order. -/
theorem hAdd_comm' (a b c : HMat) : hAdd (hAdd a b) c = hAdd (hAdd a c) b := by
  unfold hAdd
  ext <;> first | (apply Complex.ext <;> dsimp only <;> ring) | (dsimp only <;> ring)

theorem foldl_perm {α : Type*} (f : α → HMat) {l l' : List α} (h : l.Perm l') (z : HMat) :
    l.foldl (fun s q => hAdd s (f q)) z = l'.foldl (fun s q => hAdd s (f q)) z :=
  @List.Perm.foldl_eq _ _ (fun s q => hAdd s (f q)) _ _ ⟨fun s a b => hAdd_comm' s (f a) (f b)⟩ h z

end Mpb.Moment

import Verif.Mat.Props
import Verif.Mat.Block
import Mathlib.Tactic.NoncommRing

/-!
# C21: the deflation constraint and the chain of constraints

Memory-level model on the heap of `Verif.Mat` (one process: `mpi_allreduce` is a copy).
-/

namespace Mpb.Solver

open Matrix Mat Mat.Spec

/-! ## Model -/

/-- `deflation_constraint`, mpb.c:556-580. -/
noncomputable def deflation (X Y BY : EM) (p : ℕ) (S S2 : Ptr) (h : Heap) : Option Heap :=
  if X.n = BY.n ∧ p ≤ BY.p ∧ p ≤ Y.p then
    (gemm .C .N X.p p X.n 1 X.data X.p BY.data BY.p 0 S2 p h).bind fun h =>
      let h := copy (p * X.p) S2 1 S 1 h
      gemm .N .C X.n X.p p (-1) Y.data Y.p S p 1 X.data X.p h
  else none

/-- `evect_add_constraint`, eigensolver_utils.c:74-86: the new link comes first. -/
def addConstraint {σ : Type*} (chain : List (Option (σ → σ))) (C : Option (σ → σ)) : List (Option (σ → σ)) := C :: chain

/-- `evectconstraint_chain_func`, eigensolver_utils.c:97-106 (`none` is a NULL function pointer). -/
def chainFunc {σ : Type*} : List (Option (σ → σ)) → σ → σ
  | [], x => x
  | none :: cs, x => chainFunc cs x
  | some C :: cs, x => chainFunc cs (C x)

/-! ## The deflation constraint -/

/-- What the constraint computes: `X := X - Y (BY)ᴴ X`, on the first `p` columns of `Y` and `BY`; nothing but `X` and the two scratch arrays changes.  The code calls it
with `p > 0` only (mpb.c:692). -/
theorem deflation_spec (X Y BY : EM) (p : ℕ) (S S2 : Ptr) (h : Heap) (hp : p ≠ 0) (hn : X.n = BY.n) (hn' : X.n = Y.n) (hB : p ≤ BY.p) (hY : p ≤ Y.p)
    (d1 : X.data.arr ≠ S2.arr) (d2 : BY.data.arr ≠ S2.arr) (d3 : S2.arr ≠ S.arr) (d4 : X.data.arr ≠ S.arr) (d5 : Y.data.arr ≠ X.data.arr)
    (d6 : Y.data.arr ≠ S.arr) (d7 : Y.data.arr ≠ S2.arr) :
    ∃ h', deflation X Y BY p S S2 h = some h' ∧
      emat h' X = emat h X - mat h Y.data Y.p X.n p * ((mat h BY.data BY.p X.n p)ᴴ * emat h X) ∧
      (∀ k a, k ≠ S.arr → k ≠ S2.arr → ¬ InBlock X.data X.p X.n X.p k a → h' k a = h k a) := by
  unfold deflation
  rw [if_pos ⟨hn, hB, hY⟩]
  obtain ⟨h1, e1, m1, f1⟩ := C23_gemm_partial .C .N X.p p X.n 1 X.data X.p BY.data BY.p 0 S2 p h (Or.inr rfl) le_rfl d1 d2
  obtain ⟨c1, c2⟩ := copy_spec (p * X.p) S2 S h1 (Or.inl d3)
  set h2 := copy (p * X.p) S2 1 S 1 h1 with hh2
  obtain ⟨h3, e3, m3, f3⟩ := C23_gemm_partial .N .C X.n X.p p (-1) Y.data Y.p S p 1 X.data X.p h2 (Or.inl hp) le_rfl d5 (Ne.symm d4)
  refine ⟨h3, by rw [e1, Option.bind_some]; exact e3, ?_, ?_⟩
  · have hS : mat h2 S p X.p p = (emat h X)ᴴ * mat h BY.data BY.p X.n p := by
      have e : mat h2 S p X.p p = mat h1 S2 p X.p p := by
        ext i j
        rw [mat_apply, mat_apply]
        refine c1 _ ?_
        rw [Nat.mul_comm p]
        exact rowMajor_lt i.2 j.2
      rw [e, m1]
      simp [opMat, emat]
    have hX2 : mat h2 X.data X.p X.n X.p = emat h X := by
      ext i j
      show h2 _ _ = h _ _
      rw [c2 _ _ (fun i _ e => d4 e.1), f1.arr d1]
    have hY2 : mat h2 Y.data Y.p X.n p = mat h Y.data Y.p X.n p := by
      ext i j
      show h2 _ _ = h _ _
      rw [c2 _ _ (fun i _ e => d6 e.1), f1.arr d7]
    show mat h3 X.data X.p X.n X.p = _
    rw [m3]
    simp only [opMat, hS, hX2, hY2, conjTranspose_mul, conjTranspose_conjTranspose]
    ext i j
    simp [Matrix.mul_assoc, sub_eq_add_neg, add_comm]
  · intro k a hk1 hk2 hb
    rw [f3 k a hb, c2 k a (fun i _ e => hk1 e.1), f1.arr hk2]

/-- C21: after the constraint every vector of the block is orthogonal, in the inner product of `B` (`B = 1`, or the inverse permeability), to the bands already
solved; a block that is orthogonal already is unchanged; applying the constraint twice is the same as applying it once.  `Y` holds orthonormal bands and `BY` holds `B Y`. -/
theorem C21_deflation (X Y BY : EM) (p : ℕ) (S S2 : Ptr) (h : Heap) (B : Matrix (Fin X.n) (Fin X.n) ℂ) (hBh : B.IsHermitian)
    (hp : p ≠ 0) (hn : X.n = BY.n) (hn' : X.n = Y.n) (hB : p ≤ BY.p) (hY : p ≤ Y.p)
    (d1 : X.data.arr ≠ S2.arr) (d2 : BY.data.arr ≠ S2.arr) (d3 : S2.arr ≠ S.arr) (d4 : X.data.arr ≠ S.arr) (d5 : Y.data.arr ≠ X.data.arr)
    (d6 : Y.data.arr ≠ S.arr) (d7 : Y.data.arr ≠ S2.arr) (d8 : BY.data.arr ≠ S.arr) (d9 : BY.data.arr ≠ X.data.arr)
    (hBY : mat h BY.data BY.p X.n p = B * mat h Y.data Y.p X.n p)
    (horth : (mat h Y.data Y.p X.n p)ᴴ * B * mat h Y.data Y.p X.n p = 1) :
    ∃ h', deflation X Y BY p S S2 h = some h' ∧
      (mat h' Y.data Y.p X.n p)ᴴ * B * emat h' X = 0 ∧ mat h' Y.data Y.p X.n p = mat h Y.data Y.p X.n p ∧
      ((mat h Y.data Y.p X.n p)ᴴ * B * emat h X = 0 → emat h' X = emat h X) ∧
      ∃ h'', deflation X Y BY p S S2 h' = some h'' ∧ emat h'' X = emat h' X := by
  obtain ⟨h', e, m, f⟩ := deflation_spec X Y BY p S S2 h hp hn hn' hB hY d1 d2 d3 d4 d5 d6 d7
  have hBc : Bᴴ = B := hBh
  have hYc : mat h' Y.data Y.p X.n p = mat h Y.data Y.p X.n p := by
    ext i j
    exact f _ _ d6 d7 (fun hb => d5 hb.1)
  have hBYc : mat h' BY.data BY.p X.n p = mat h BY.data BY.p X.n p := by
    ext i j
    exact f _ _ d8 d2 (fun hb => d9 hb.1)
  have hk : (mat h BY.data BY.p X.n p)ᴴ = (mat h Y.data Y.p X.n p)ᴴ * B := by rw [hBY, conjTranspose_mul, hBc]
  have hz : (mat h Y.data Y.p X.n p)ᴴ * B * emat h' X = 0 := by
    rw [m, hk, Matrix.mul_sub, ← Matrix.mul_assoc, horth, Matrix.one_mul, sub_self]
  refine ⟨h', e, by rw [hYc]; exact hz, hYc, ?_, ?_⟩
  · intro h0
    rw [m, hk, h0, Matrix.mul_zero, sub_zero]
  · obtain ⟨h'', e2, m2, -⟩ := deflation_spec X Y BY p S S2 h' hp hn hn' hB hY d1 d2 d3 d4 d5 d6 d7
    refine ⟨h'', e2, ?_⟩
    rw [m2, hBYc, hYc, hk, hz, Matrix.mul_zero, sub_zero]

/-- C21: "this constraint commutes with the eigen-operator": when the solved bands are eigenvectors (`A Y = B Y Λ`), the operator maps blocks orthogonal to them to
blocks that are orthogonal to them (in the dual sense: `Yᴴ B X = 0` gives `Yᴴ (A X) = 0`). -/
theorem C21_commutes {n m : Type*} [Fintype n] [Fintype m] [DecidableEq m] {q : Type*} (A B : Matrix n n ℂ) (hA : A.IsHermitian) (hB : B.IsHermitian)
    (Y : Matrix n m ℂ) (X : Matrix n q ℂ) (lam : m → ℝ) (hY : A * Y = B * Y * diagonal (fun i => (lam i : ℂ))) (hX : Yᴴ * B * X = 0) : Yᴴ * (A * X) = 0 := by
  have hA' : Aᴴ = A := hA
  have hB' : Bᴴ = B := hB
  have h1 : Yᴴ * A = diagonal (fun i => (lam i : ℂ)) * (Yᴴ * B) := by
    have := congrArg conjTranspose hY
    rw [conjTranspose_mul, conjTranspose_mul, conjTranspose_mul, hA', hB', diagonal_conjTranspose] at this
    rw [this]
    congr 2
    ext i
    simp
  rw [← Matrix.mul_assoc, h1, Matrix.mul_assoc, hX, Matrix.mul_zero]

/-! ## The chain of constraints -/

/-- C21: the constraints of a chain are applied one after the other, the one added last first; absent (NULL) functions are skipped. -/
theorem C21_chain_order {σ : Type*} (chain : List (Option (σ → σ))) (C : σ → σ) (x : σ) :
    chainFunc ([] : List (Option (σ → σ))) x = x ∧ chainFunc (addConstraint chain (some C)) x = chainFunc chain (C x) ∧
      chainFunc (addConstraint chain none) x = chainFunc chain x := ⟨rfl, rfl, rfl⟩

theorem chainFunc_fixed {σ : Type*} {P : σ → σ} : ∀ (chain : List (Option (σ → σ))) (x : σ),
    (∀ C, some C ∈ chain → ∀ y, P (C y) = C (P y)) → P x = x → P (chainFunc chain x) = chainFunc chain x
  | [], _, _, hx => hx
  | none :: cs, x, h, hx => chainFunc_fixed cs x (fun C hC => h C (List.mem_cons_of_mem _ hC)) hx
  | some C :: cs, x, h, hx => by
    refine chainFunc_fixed cs (C x) (fun C' hC' => h C' (List.mem_cons_of_mem _ hC')) ?_
    rw [h C (by simp), hx]

/-- C21: a chain of pairwise commuting projections (deflation, zero-frequency and parity constraint) leaves a vector that satisfies every one of them, whatever the
order in which they were added. -/
theorem C21_chain_all {σ : Type*} : ∀ (chain : List (Option (σ → σ))) (x : σ),
    (∀ C, some C ∈ chain → ∀ y, C (C y) = C y) → (∀ C, some C ∈ chain → ∀ C', some C' ∈ chain → ∀ y, C (C' y) = C' (C y)) →
    ∀ C, some C ∈ chain → C (chainFunc chain x) = chainFunc chain x
  | [], _, _, _, C, hC => by simp at hC
  | none :: cs, x, hi, hc, C, hC => by
    have hC' : some C ∈ cs := by simpa using hC
    exact C21_chain_all cs x (fun D hD => hi D (List.mem_cons_of_mem _ hD))
      (fun D hD E hE => hc D (List.mem_cons_of_mem _ hD) E (List.mem_cons_of_mem _ hE)) C hC'
  | some D :: cs, x, hi, hc, C, hC => by
    rcases List.mem_cons.1 hC with h | h
    · obtain rfl := Option.some.inj h
      exact chainFunc_fixed cs (C x) (fun E hE y => hc C (by simp) E (List.mem_cons_of_mem _ hE) y) (hi C (by simp) x)
    · exact C21_chain_all cs (D x) (fun E hE => hi E (List.mem_cons_of_mem _ hE))
        (fun E hE F hF => hc E (List.mem_cons_of_mem _ hE) F (List.mem_cons_of_mem _ hF)) C h

/-- Non-vacuity of `C21_deflation`: two rows, one solved band `e₀` (array 1), a block `(1, 2)ᵀ` (array 0), `B = 1`. -/
noncomputable def exDefl : Heap := fun k a => if k = 0 then (if a = 0 then 1 else 2) else if k = 1 then (if a = 0 then 1 else 0) else 0

example : ∃ h', deflation ⟨2, 1, 1, ⟨0, 0⟩⟩ ⟨2, 1, 1, ⟨1, 0⟩⟩ ⟨2, 1, 1, ⟨1, 0⟩⟩ 1 ⟨2, 0⟩ ⟨3, 0⟩ exDefl = some h' ∧ rd h' ⟨0, 0⟩ 0 = 0 ∧ rd h' ⟨0, 0⟩ 1 = 2 := by
  obtain ⟨h', e, m, -⟩ := deflation_spec ⟨2, 1, 1, ⟨0, 0⟩⟩ ⟨2, 1, 1, ⟨1, 0⟩⟩ ⟨2, 1, 1, ⟨1, 0⟩⟩ 1 ⟨2, 0⟩ ⟨3, 0⟩ exDefl (by decide) rfl rfl (by decide) (by decide)
    (by decide) (by decide) (by decide) (by decide) (by decide) (by decide) (by decide)
  refine ⟨h', e, ?_, ?_⟩
  · have := congrFun (congrFun m (0 : Fin 2)) (0 : Fin 1)
    simpa [emat, mat, exDefl, Matrix.mul_apply, Fin.sum_univ_two, rd] using this
  · have := congrFun (congrFun m (1 : Fin 2)) (0 : Fin 1)
    simpa [emat, mat, exDefl, Matrix.mul_apply, Fin.sum_univ_two, rd] using this

end Mpb.Solver

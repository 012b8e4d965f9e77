import Verif.RealBuild.ParityModel
import Verif.RealBuild.Spec
import Verif.Parity.Props

namespace Mpb.RealBuild
open Mpb.Maxwell Mpb.Parity Mpb.RealBuild.Spec

theorem writes_asComplex : ∀ (l : List (ℕ × ℝ)) (X : ℕ → ℝ),
    writes (l.map fun t => (t.1, (t.2 : ℂ))) (asComplex X) = asComplex (writes l X)
  | [], _ => rfl
  | t :: l, X => by
      have ih := writes_asComplex l (Function.update X t.1 t.2)
      have : asComplex (Function.update X t.1 t.2) = Function.update (asComplex X) t.1 (t.2 : ℂ) := by
        funext a
        by_cases h : a = t.1
        · subst h; simp [asComplex]
        · simp [asComplex, Function.update_of_ne h]
      rw [this] at ih
      exact ih

theorem foldl_asComplex {τ : Type} (f : (ℕ → ℝ) → τ → ℕ → ℝ) (g : (ℕ → ℂ) → τ → ℕ → ℂ) (h : ∀ X t, g (asComplex X) t = asComplex (f X t)) :
    ∀ (l : List τ) (X : ℕ → ℝ), l.foldl g (asComplex X) = asComplex (l.foldl f X)
  | [], _ => rfl
  | t :: l, X => by rw [List.foldl_cons, List.foldl_cons, h]; exact foldl_asComplex f g h l _

theorem pairStep_asComplex (su : ℝ) (p : ℕ) (X : ℕ → ℝ) (c c2 b : ℕ) :
    pairStep su p (asComplex X) c c2 b = asComplex (pairStepR su p X c c2 b) := by
  rw [pairStepR, ← writes_asComplex, pairStep]
  congr 1
  simp only [List.map_cons, List.map_nil, asComplex, Complex.ofReal_re, Complex.ofReal_im, mul_zero, add_zero, sub_zero]
  rfl

theorem zconstraint_asComplex (g : Grid) (parity : BitVec 32) (p : ℕ) (X : ℕ → ℝ) :
    zparityConstraint g parity p (asComplex X) = asComplex (zparityConstraintR g parity p X) := by
  unfold zparityConstraint zparityConstraintR
  dsimp only
  split_ifs
  · rfl
  · exact foldl_asComplex _ _ (fun X t => pairStep_asComplex _ _ _ _ _ _) _ _
  · rw [← writes_asComplex, List.map_map]; rfl
  · rw [← writes_asComplex, List.map_map]; rfl
  · rfl

theorem yconstraint_asComplex (g : Grid) (parity : BitVec 32) (p : ℕ) (X : ℕ → ℝ) :
    yparityConstraint g parity p (asComplex X) = asComplex (yparityConstraintR g parity p X) := by
  unfold yparityConstraint yparityConstraintR
  dsimp only
  split_ifs
  · rfl
  · exact foldl_asComplex _ _ (fun X t => pairStep_asComplex _ _ _ _ _ _) _ _

/-- **C111** (parity).  In the inversion-symmetric build the projection on a parity does to the real amplitudes what the general build does to the same
amplitudes stored as complex numbers (so the projected bands are real again), and the parities returned by `compute-zparities` and `compute-yparities`
are the same numbers. -/
theorem C111_parity (g : Grid) (parity : BitVec 32) (p : ℕ) (X : ℕ → ℝ) :
    parityConstraint g parity p (asComplex X) = asComplex (parityConstraintR g parity p X) ∧
    (∀ b, zparity g p (asComplex X) b = zparityR g p X b) ∧ ∀ b, yparity g p (asComplex X) b = yparityR g p X b := by
  refine ⟨?_, fun b => ?_, fun b => ?_⟩
  · unfold parityConstraint parityConstraintR
    dsimp only
    split_ifs <;> simp only [zconstraint_asComplex, yconstraint_asComplex]
  · simp only [zparity, zparityR, asComplex, Complex.ofReal_re, Complex.ofReal_im, mul_zero, add_zero, sub_zero]
  · simp only [yparity, yparityR, asComplex, Complex.ofReal_re, Complex.ofReal_im, mul_zero, add_zero, sub_zero]

theorem writes2_asComplex (a b : ℕ) (x y : ℝ) (X : ℕ → ℝ) :
    writes [(a, (x : ℂ)), (b, (y : ℂ))] (asComplex X) = asComplex (writes [(a, x), (b, y)] X) :=
  writes_asComplex [(a, x), (b, y)] X

/-- **C111** (zero wavevector).  At `k = 0` the constant bands set by the inversion-symmetric build, and the removal of the constant part from the other
bands, are those of the general build. -/
theorem C111_zero_k (parity : BitVec 32) (n p : ℕ) (X : ℕ → ℝ) :
    setConstBands parity n p 0 (asComplex X) = asComplex (setConstBandsR parity n p X) ∧
    zeroKConstraint p 0 (asComplex X) = asComplex (zeroKConstraintR p X) := by
  have z : ((0 : ℝ) : ℂ) = 0 := Complex.ofReal_zero
  have o : ((1 : ℝ) : ℂ) = 1 := Complex.ofReal_one
  constructor
  · unfold setConstBands setConstBandsR
    dsimp only
    rw [if_neg (lt_irrefl 0)]
    by_cases hp : p < 1
    · rw [if_pos hp, if_pos hp]
    · rw [if_neg hp, if_neg hp]
      have e1 : writes ((loop2 n (numConstBands parity p)).map fun t => (t.1 * p + t.2, (0 : ℂ))) (asComplex X) =
          asComplex (writes ((loop2 n (numConstBands parity p)).map fun t => (t.1 * p + t.2, (0 : ℝ))) X) := by
        rw [← writes_asComplex, List.map_map]; rfl
      rw [e1]
      simp only [← z, ← o, writes2_asComplex]
      split_ifs <;> simp only [writes2_asComplex]
  · rw [zeroKConstraint, if_neg (lt_irrefl 0)]
    exact foldl_asComplex _ _ (fun X j => by rw [← z]; exact writes2_asComplex _ _ _ _ _) _ _

/-- A case: one planewave pair on a grid of 1 × 1 × 3 points with `u` equal at the mirror planewaves: the even projection leaves it, and its
parity is `+1`. -/
example : zparityR ⟨1, 1, 3⟩ 1 (fun a => if a = 2 ∨ a = 4 then 1 else 0) 0 = 1 := by
  simp [zparityR, Grid.otherDims, Grid.lastDim, loop2, mir, List.range_succ, List.flatMap]

end Mpb.RealBuild

import Verif.Brillouin.Lemmas

/-! # Property C57: `first-brillouin-zone` -/

namespace Mpb.Brillouin
open Spec

variable {F : Type*} [Field F] [LinearOrder F] [IsStrictOrderedRing F] [FloorRing F]

/-- C57 (termination).  For every nonsingular reciprocal lattice and every k-point the search terminates: with enough
fuel a result is returned. -/
theorem C57_terminates (B : M3 F) (hB : Nonsingular B) (k : V3 F) : ∃ m n r, firstBZ B m n k = some r := by
  unfold firstBZ
  dsimp only
  split_ifs with h
  · obtain ⟨r, hr⟩ := repeat_total hB (Nat.lt_succ_self _) (Nat.lt_succ_self _)
    exact ⟨_, _, r, hr⟩
  · obtain ⟨r, hr⟩ := repeat_total hB (Nat.lt_succ_self _) (Nat.lt_succ_self _)
    exact ⟨_, _, r, hr⟩

/-- Specification: `r` is `x` rounded to the nearest integer, and to the even one when two are equally near. -/
def Spec.IsRound (x : F) (r : ℤ) : Prop := |x - r| ≤ 1 / 2 ∧ (|x - r| = 1 / 2 → Even r)

/-- C57 (the first step).  The shift subtracted first is the nearest point with integer coordinates. -/
theorem C57_round (x : F) : Spec.IsRound x (schemeRound x) := by
  unfold Spec.IsRound schemeRound
  simp only
  have h1 := Int.floor_le (x + 1 / 2)
  have h2 := Int.lt_floor_add_one (x + 1 / 2)
  generalize ⌊x + 1 / 2⌋ = r at h1 h2
  split_ifs with hc
  · obtain ⟨c1, c2⟩ := hc
    push_cast
    have : x - (r - 1) = 1 / 2 := by rw [c1]; ring
    rw [this, abs_of_pos (by norm_num)]
    exact ⟨le_rfl, fun _ => ⟨r / 2, by omega⟩⟩
  · refine ⟨abs_le.2 ⟨by linarith, by linarith⟩, fun h => ?_⟩
    rcases abs_choice (x - r) with h' | h'
    · rw [h'] at h; exfalso; linarith
    · rw [h'] at h
      have : (r : F) = x + 1 / 2 := by linarith
      rw [Int.even_iff]
      have h3 : r % 2 ≠ 1 := fun h => hc ⟨this, h⟩
      omega

/-- C57 (soundness).  Every result is equivalent to the given point, no farther from the origin, and cannot be improved by
a shift with components in `{-1,0,1}`. -/
theorem C57_sound (B : M3 F) (k r : V3 F) (m n : ℕ) (h : firstBZ B m n k = some r) :
    Equivalent k r ∧ lenSq B r ≤ lenSq B k ∧ LocallyMinimal B r := by
  rw [lenSq_eq, lenSq_eq]
  unfold firstBZ at h
  dsimp only at h
  split_ifs at h with hc
  · obtain ⟨g, hl⟩ := repeat_good h
    refine ⟨Equivalent.trans ⟨-schemeRound k.x, -schemeRound k.y, -schemeRound k.z, ?_⟩ g.1, g.le.trans hc.le,
      local_of_list hl⟩
    ext <;> simp [ivec] <;> ring
  · obtain ⟨g, hl⟩ := repeat_good h
    exact ⟨g.1, g.le, local_of_list hl⟩

/-- C57 (partial: only for lattices with a Selling-reduced basis in `{-1,0,1}` coordinates, which covers all the usual
crystal lattices; the full statement, without the hypothesis `SellingReduced B`, is refuted below).  The result lies in
the first Brillouin zone: no equivalent k-point is closer to the origin. -/
theorem C57_minimal_partial (B : M3 F) (hS : SellingReduced B) (k r : V3 F) (m n : ℕ) (h : firstBZ B m n k = some r) :
    InFirstZone B r :=
  inFirstZone_of_local hS (C57_sound B k r m n h).2.2

/-- The skew lattice of the counterexample: columns `(1,0,0)`, `(5/2,1/10,0)`, `(0,0,1)`. -/
def skewB : M3 ℚ := ⟨⟨1, 0, 0⟩, ⟨5/2, 1/10, 0⟩, ⟨0, 0, 1⟩⟩

/-- C57 (refutation of the full statement).  For a skew lattice the result need not lie in the first Brillouin zone. -/
theorem C57_minimal_refuted : ∃ (B : M3 ℚ) (k r : V3 ℚ) (m n : ℕ),
    Nonsingular B ∧ firstBZ B m n k = some r ∧ ¬ InFirstZone B r := by
  refine ⟨skewB, ⟨2/5, 0, 0⟩, ⟨2/5, 0, 0⟩, 2, 2, ?_, ?_, ?_⟩
  · refine ⟨⟨⟨1, 0, 0⟩, ⟨-25, 10, 0⟩, ⟨0, 0, 1⟩⟩, fun v => ?_⟩
    ext <;> simp [M3.mulVec, skewB] <;> ring
  · decide +kernel
  · intro h
    have := h (⟨2/5, 0, 0⟩ + ivec 2 (-1) 0) ⟨2, -1, 0, rfl⟩
    simp [lenSq, M3.mulVec, skewB, ivec] at this
    norm_num at this

/-! ### Non-vacuity -/

/-- A body-centred/face-centred pair: the fcc primitive basis is Selling-reduced through `(1,0,0)`, `(-1,1,0)`, `(0,-1,1)`. -/
example : SellingReduced (⟨⟨0, 1, 1⟩, ⟨1, 0, 1⟩, ⟨1, 1, 0⟩⟩ : M3 ℚ) := by
  refine ⟨⟨1, 0, 0⟩, ⟨-1, 1, 0⟩, ⟨0, -1, 1⟩, fun a b c => ⟨a + b + c, b + c, c, by ring, by ring, by ring⟩, ?_, ?_⟩
  · rintro s1 s2 s3 (rfl | rfl) (rfl | rfl) (rfl | rfl) <;> decide
  · simp only [M3.mulVec, ivec, V3.dot, V3.add_x, V3.add_y, V3.add_z]; norm_num

/-- The bcc primitive basis is itself an obtuse superbase. -/
example : SellingReduced (⟨⟨-1, 1, 1⟩, ⟨1, -1, 1⟩, ⟨1, 1, -1⟩⟩ : M3 ℚ) := by
  refine ⟨⟨1, 0, 0⟩, ⟨0, 1, 0⟩, ⟨0, 0, 1⟩, fun a b c => ⟨a, b, c, by ring, by ring, by ring⟩, ?_, ?_⟩
  · rintro s1 s2 s3 (rfl | rfl) (rfl | rfl) (rfl | rfl) <;> decide
  · simp only [M3.mulVec, ivec, V3.dot, V3.add_x, V3.add_y, V3.add_z]; norm_num

/-- Every orthogonal basis is Selling-reduced. -/
example (a b c : ℚ) : SellingReduced (⟨⟨a, 0, 0⟩, ⟨0, b, 0⟩, ⟨0, 0, c⟩⟩ : M3 ℚ) := by
  refine ⟨⟨1, 0, 0⟩, ⟨0, 1, 0⟩, ⟨0, 0, 1⟩, fun a b c => ⟨a, b, c, by ring, by ring, by ring⟩, ?_, ?_⟩
  · rintro s1 s2 s3 (rfl | rfl) (rfl | rfl) (rfl | rfl) <;> decide
  · simp only [M3.mulVec, ivec, V3.dot, V3.add_x, V3.add_y, V3.add_z]
    norm_num
    exact ⟨mul_self_nonneg a, mul_self_nonneg b, mul_self_nonneg c⟩

example : Nonsingular (⟨⟨0, 1, 1⟩, ⟨1, 0, 1⟩, ⟨1, 1, 0⟩⟩ : M3 ℚ) := by
  refine ⟨⟨⟨-1/2, 1/2, 1/2⟩, ⟨1/2, -1/2, 1/2⟩, ⟨1/2, 1/2, -1/2⟩⟩, fun v => ?_⟩
  ext <;> simp [M3.mulVec] <;> ring

/-- A concrete run that moves: in the fcc basis `(3/4, 3/4, 3/4)` has an equivalent point much closer to the origin. -/
example : firstBZ (⟨⟨0, 1, 1⟩, ⟨1, 0, 1⟩, ⟨1, 1, 0⟩⟩ : M3 ℚ) 4 4 ⟨3/4, 9/4, 3/4⟩ = some ⟨-1/4, 1/4, -1/4⟩ := by
  decide +kernel

end Mpb.Brillouin

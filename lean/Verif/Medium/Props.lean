import Verif.Medium.Model

/-!
# C101: which material determines the tensors at a point; C102: materials with a permeability
-/

namespace Mpb.Medium

open Mpb.Tensor Mpb.MatGrid

/-! ## Specification -/

/-- A material without material functions. -/
def Spec.Explicit : Material → Prop
  | .func _ => False
  | _ => True

/-- The tensor a user asks for with an ordinary medium: `v` times the identity, or the given matrix. -/
def Spec.Asked (herm : Bool) (w : Which) : Material → HMat → Prop
  | .medium eps mu, t => t = scalar (match w with | .eps => eps | .mu => mu)
  | .anisotropic eps mu, t =>
    let a := match w with | .eps => eps | .mu => mu
    t.m00 = a.diag.x ∧ t.m11 = a.diag.y ∧ t.m22 = a.diag.z ∧ t.m01.re = a.off.x.re ∧ t.m02.re = a.off.y.re ∧ t.m12.re = a.off.z.re ∧
      t.m01.im = a.off.x.im + a.offIm.x ∧ t.m02.im = a.off.y.im + a.offIm.y ∧ t.m12.im = a.off.z.im + a.offIm.z
  | _, _ => False

/-! ## C101 -/

/-- C101 (the topmost object).  At a point inside an object with an ordinary material the tensor is the one given for that material,
whatever lies below the object, whatever the default material is and whether or not there is an input file; nothing else than this tensor is
ever used there. -/
theorem C101_topmost (herm : Bool) (w : Which) (file : Option (HMat × HMat)) (u : MGrid → ℝ) (p : V3 ℝ) (m : Material) (below : List Material)
    (dflt : Material) (t i : HMat) (hm : (∃ eps mu, m = .medium eps mu) ∨ ∃ a b, m = .anisotropic a b)
    (h : tensorAt herm w file u p (m :: below) dflt = .ok (t, i)) :
    Spec.Asked herm w m t ∧ ∀ file' below' dflt' u' p', tensorAt herm w file' u' p' (m :: below') dflt' = .ok (t, i) := by
  rcases hm with ⟨eps, mu, rfl⟩ | ⟨a, b, rfl⟩
  · refine ⟨?_, fun _ _ _ _ _ => h⟩
    simp only [tensorAt, evaluate, pick, Material.resolve, materialTensor] at h
    split_ifs at h
    rw [Res.ok.injEq, Prod.mk.injEq] at h
    exact h.1.symm
  · refine ⟨?_, fun _ _ _ _ _ => h⟩
    have key : ∀ c : Aniso, (match c.tensor herm with
        | .ok t => match hInvert t with
          | .ok i => .ok (t, i)
          | .checkFailed => .checkFailed
          | .nonFinite => .nonFinite
        | .checkFailed => .checkFailed
        | .nonFinite => .nonFinite : Res (HMat × HMat)) = .ok (t, i) →
        t.m00 = c.diag.x ∧ t.m11 = c.diag.y ∧ t.m22 = c.diag.z ∧ t.m01.re = c.off.x.re ∧ t.m02.re = c.off.y.re ∧ t.m12.re = c.off.z.re ∧
          t.m01.im = c.off.x.im + c.offIm.x ∧ t.m02.im = c.off.y.im + c.offIm.y ∧ t.m12.im = c.off.z.im + c.offIm.z := by
      intro c h
      unfold Aniso.tensor at h
      split_ifs at h with h1 h2
      · simp only at h
        split at h <;> simp only [Res.ok.injEq, Prod.mk.injEq, reduceCtorEq] at h
        rw [← h.1]
        simp [Aniso.im]
      · simp only at h
        split at h <;> simp only [Res.ok.injEq, Prod.mk.injEq, reduceCtorEq] at h
        rw [← h.1]
        obtain ⟨h3, h4, h5⟩ := h2
        simp only [Aniso.im] at h3 h4 h5
        simp [h3, h4, h5]
    cases w
    · exact key a h
    · exact key b h

/-- C101 (holes).  An object made of "nothing" is a hole through everything below it: the tensor is the one of a point outside all
objects. -/
theorem C101_nothing (herm : Bool) (w : Which) (file : Option (HMat × HMat)) (u : MGrid → ℝ) (p : V3 ℝ) (below : List Material) (dflt : Material) :
    tensorAt herm w file u p (.self :: below) dflt = tensorAt herm w file u p [] dflt := rfl

/-- C101 (outside all objects).  The input file is used outside all objects, and only there; without one the default material is used there as
if it were an object. -/
theorem C101_outside (herm : Bool) (w : Which) (f : HMat × HMat) (u : MGrid → ℝ) (p : V3 ℝ) (dflt : Material) :
    tensorAt herm w (some f) u p [] dflt = .ok f ∧
    tensorAt herm w none u p [] dflt = tensorAt herm w none u p [dflt] dflt ∧
    ∀ m below, m ≠ .self → tensorAt herm w (some f) u p (m :: below) dflt = tensorAt herm w none u p (m :: below) dflt := by
  refine ⟨rfl, ?_, ?_⟩
  · cases dflt <;> rfl
  · intro m below hm
    cases m with
    | self => exact absurd rfl hm
    | _ => rfl

/-- C101 (material functions; partial: the value is not a material grid, see `C101_function_grid_refuted`).  A material function is replaced by its value at
the point (`tensorAt` takes the value of a grid as given; with grids it is `tensorFull`). -/
theorem C101_function_partial (herm : Bool) (w : Which) (file : Option (HMat × HMat)) (u : MGrid → ℝ) (p : V3 ℝ) (f : V3 ℝ → Material) (below : List Material)
    (dflt : Material) (hf : f p ≠ .self) :
    tensorAt herm w file u p (.func f :: below) dflt = tensorAt herm w file u p (f p :: below) dflt := by
  unfold tensorAt
  have h1 : (pick (f p :: below) dflt) = (f p, true) := by
    unfold pick
    cases h : f p with
    | self => exact absurd h hf
    | _ => rfl
  rw [h1]
  rfl

/-! ## C102 -/

/-- C102 (partial: no material functions).  Where no material function is involved the solver works with exactly the permeability of the
material at each point: leaving the permeability out when no material has one loses nothing. -/
theorem C102_permeability_partial (herm : Bool) (file : Option (HMat × HMat)) (force : Bool) (u : MGrid → ℝ) (p : V3 ℝ)
    (stack : List Material) (dflt : Material) (objs : List Material) (hs : ∀ m ∈ stack, m ∈ objs) (hd : Spec.Explicit dflt)
    (ho : ∀ m ∈ objs, Spec.Explicit m) (hself : dflt ≠ .self) :
    solverMu herm file force u p stack dflt objs = tensorAt herm .mu file u p stack dflt := by
  unfold solverMu
  split_ifs with h
  · rfl
  have key : ∀ m, Spec.Explicit m → m ≠ .self → materialHasMu m = false →
      evaluate herm .mu u p m = Res.ok (scalar 1, scalar 1) := by
    intro m hm hs hmu
    cases m with
    | medium eps mu =>
      simp only [materialHasMu, ne_eq, decide_eq_false_iff_not, not_not] at hmu
      subst hmu
      simp [evaluate, Material.resolve, materialTensor]
    | anisotropic e a =>
      simp only [materialHasMu, decide_eq_false_iff_not, not_or, not_not] at hmu
      obtain ⟨h1, h2, h3, h4, h5, h6, h7, h8, h9⟩ := hmu
      have ht : a.tensor herm = .ok (scalar 1) := by
        unfold Aniso.tensor
        have e0 : (⟨0, 0⟩ : ℂ) = 0 := rfl
        simp only [Aniso.im, h1, h2, h3, h4, h5, h6, h7, h8, h9, and_self, if_true, Complex.ofReal_zero, ite_self, e0]
        rfl
      simp only [evaluate, Material.resolve, materialTensor, ht]
      have hi : hInvert (scalar 1) = .ok (scalar 1) := by
        unfold hInvert scalar
        simp
      rw [hi]
    | grid g =>
      simp only [materialHasMu, decide_eq_false_iff_not, not_or, not_not] at hmu
      obtain ⟨h1, h2⟩ := hmu
      simp [evaluate, Material.resolve, gridMedium, materialTensor, h1, h2]
    | func f => exact absurd hm (by simp [Spec.Explicit])
    | self => exact absurd rfl hs
  simp only [hasMu, Bool.not_eq_true, Bool.or_eq_false_iff, Option.isSome_eq_false_iff, Option.isNone_iff_eq_none] at h
  obtain ⟨⟨⟨hf, -⟩, hmd⟩, hmo⟩ := h
  subst hf
  have hobj : ∀ m ∈ objs, materialHasMu m = false := by
    intro m hm
    have := List.any_eq_false.1 hmo m hm
    simpa using this
  have hK := key dflt hd hself hmd
  unfold tensorAt
  cases stack with
  | nil => simpa [pick] using hK.symm
  | cons m st =>
    by_cases hms : m = .self
    · subst hms; simpa [pick] using hK.symm
    · have h1 : pick (m :: st) dflt = (m, true) := by
        unfold pick
        cases m with
        | self => exact absurd rfl hms
        | _ => rfl
      rw [h1]
      have := key m (ho m (hs m (by simp))) hms (hobj m (hs m (by simp)))
      simpa using this.symm

/-- C102 fails for material functions: one that returns media with a permeability, as the only material with one, is not noticed, and the solver
works without any permeability.  `force-mu?` is the remedy. -/
theorem C102_function_refuted (herm : Bool) (u : MGrid → ℝ) (p : V3 ℝ) (mu : ℝ) (hmu : mu ≠ 1) (h0 : mu ≠ 0) :
    let m : Material := .func fun _ => .medium 1 mu
    solverMu herm none false u p [m] (.medium 1 1) [m] = .ok (scalar 1, scalar 1) ∧
    tensorAt herm .mu none u p [m] (.medium 1 1) = .ok (scalar mu, scalar (1 / mu)) ∧ scalar mu ≠ scalar 1 ∧
    solverMu herm none true u p [m] (.medium 1 1) [m] = .ok (scalar mu, scalar (1 / mu)) := by
  have h1 : scalar mu ≠ scalar 1 := by
    intro h
    exact hmu (congrArg HMat.m00 h)
  refine ⟨?_, ?_, h1, ?_⟩
  · simp [solverMu, hasMu, materialHasMu]
  · simp [tensorAt, evaluate, pick, Material.resolve, materialTensor, h0]
  · simp [solverMu, hasMu, tensorAt, evaluate, pick, Material.resolve, materialTensor, h0]

/-- Non-vacuity of `C102_permeability_partial` and `C101_topmost`: an object with permeability 2 in air. -/
example : ∃ (stack objs : List Material) (dflt : Material), (∀ m ∈ stack, m ∈ objs) ∧ Spec.Explicit dflt ∧ (∀ m ∈ objs, Spec.Explicit m) ∧ dflt ≠ .self ∧
    ∀ (u : MGrid → ℝ) (p : V3 ℝ), solverMu false none false u p stack dflt objs = .ok (scalar 2, scalar (1 / 2)) := by
  refine ⟨[.medium 12 2], [.medium 12 2], .medium 1 1, fun _ h => h, trivial, ?_, by simp, fun u p => ?_⟩
  · intro m hm
    rw [List.mem_singleton] at hm
    subst hm
    trivial
  · have h2 : (2 : ℝ) ≠ 1 := by norm_num
    simp [solverMu, hasMu, materialHasMu, tensorAt, evaluate, pick, Material.resolve, materialTensor, h2]

end Mpb.Medium

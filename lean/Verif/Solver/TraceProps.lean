import Verif.Solver.Trace
import Verif.Linmin.Props
import Mathlib.Tactic.Linarith
import Mathlib.Tactic.Ring
import Mathlib.Tactic.FieldSimp
import Mathlib.Tactic.Module
import Mathlib.Tactic.NoncommRing
import Mathlib.Analysis.Normed.Module.FiniteDimension

/-!
# C26: value and derivative of the line-minimisation objective
-/

namespace Mpb.Solver

open Matrix Topology

open scoped ComplexOrder

/-- The contract of `sqmatrix_invert(·, 1, ·)` (Cholesky factorisation) for Hermitian matrices: it succeeds exactly on positive definite
matrices and then returns the inverse. -/
def CholeskyInv {p : ℕ} (inv : Sq p → Option (Sq p)) : Prop :=
  ∀ A : Sq p, A.IsHermitian → (A.PosDef → inv A = some A⁻¹) ∧ (¬ A.PosDef → inv A = none)

/-- All matrices of the data are Hermitian. -/
structure TraceData.Herm {p : ℕ} (d : TraceData p) : Prop where
  h1 : d.YtAY.IsHermitian
  h2 : d.DtAD.IsHermitian
  h3 : d.symYtAD.IsHermitian
  h4 : d.YtBY.IsHermitian
  h5 : d.DtBD.IsHermitian
  h6 : d.symYtBD.IsHermitian

theorem herm_smul {p : ℕ} {A : Sq p} (h : A.IsHermitian) (r : ℝ) : (((r : ℝ) : ℂ) • A).IsHermitian := by
  unfold Matrix.IsHermitian at *
  rw [conjTranspose_smul, h]
  simp

theorem rotated_herm {p : ℕ} {P Q R : Sq p} (hP : P.IsHermitian) (hQ : Q.IsHermitian) (hR : R.IsHermitian) (c s : ℝ) :
    (rotated P Q R c s).IsHermitian :=
  ((herm_smul hP _).add (herm_smul hQ _)).add (herm_smul hR _)

theorem rotatedDeriv_herm {p : ℕ} {P Q R : Sq p} (hP : P.IsHermitian) (hQ : Q.IsHermitian) (hR : R.IsHermitian) (c s : ℝ) :
    (rotatedDeriv P Q R c s).IsHermitian :=
  (herm_smul (hP.add (herm_smul hQ _)) _).add (herm_smul hR _)

section calculus

attribute [local instance] Matrix.linftyOpNormedRing Matrix.linftyOpNormedAlgebra

theorem hasDerivAt_cos2 (t : ℝ) : HasDerivAt (fun x => Real.cos x * Real.cos x) (-Real.sin (2 * t)) t := by
  have h := (Real.hasDerivAt_cos t).mul (Real.hasDerivAt_cos t)
  refine h.congr_deriv ?_
  rw [Real.sin_two_mul]; ring

theorem hasDerivAt_sin2 (t : ℝ) : HasDerivAt (fun x => Real.sin x * Real.sin x) (Real.sin (2 * t)) t := by
  have h := (Real.hasDerivAt_sin t).mul (Real.hasDerivAt_sin t)
  refine h.congr_deriv ?_
  rw [Real.sin_two_mul]; ring

theorem hasDerivAt_sc2 (t : ℝ) : HasDerivAt (fun x => 2 * Real.sin x * Real.cos x) (2 * Real.cos (2 * t)) t := by
  have h := ((Real.hasDerivAt_sin t).const_mul 2).mul (Real.hasDerivAt_cos t)
  refine h.congr_deriv ?_
  rw [Real.cos_two_mul]
  have := Real.sin_sq_add_cos_sq t
  nlinarith

theorem hasDerivAt_smul_sq {p : ℕ} {f : ℝ → ℝ} {f' t : ℝ} (h : HasDerivAt f f' t) (A : Sq p) :
    HasDerivAt (fun x => ((f x : ℝ) : ℂ) • A) (((f' : ℝ) : ℂ) • A) t := by
  have h1 : HasDerivAt (fun x => f x • A) (f' • A) t := h.smul_const A
  have e : ∀ r : ℝ, ((r : ℝ) : ℂ) • A = r • A := fun r => by
    ext i j
    simp
  simpa only [e] using h1

theorem hasDerivAt_rotated {p : ℕ} (P Q R : Sq p) (t : ℝ) :
    HasDerivAt (fun x => rotated P Q R (Real.cos x) (Real.sin x))
      ((2 : ℂ) • rotatedDeriv P Q R (Real.cos (2 * t)) (Real.sin (2 * t))) t := by
  have h := ((hasDerivAt_smul_sq (hasDerivAt_cos2 t) P).add (hasDerivAt_smul_sq (hasDerivAt_sin2 t) Q)).add
    (hasDerivAt_smul_sq (hasDerivAt_sc2 t) R)
  refine h.congr_deriv ?_
  unfold rotatedDeriv
  ext i j
  simp only [Matrix.add_apply, Matrix.smul_apply, smul_eq_mul]
  push_cast
  ring

/-- Derivative of the inverse. -/
theorem hasDerivAt_inv {p : ℕ} {G : ℝ → Sq p} {G' : Sq p} {t : ℝ} (h : HasDerivAt G G' t) (hu : IsUnit (G t)) :
    HasDerivAt (fun x => (G x)⁻¹) (-((G t)⁻¹ * G' * (G t)⁻¹)) t := by
  haveI : CompleteSpace (Sq p) := FiniteDimensional.complete ℝ _
  obtain ⟨u, hu⟩ := hu
  have h1 := hasFDerivAt_ringInverse (𝕜 := ℝ) u
  rw [hu] at h1
  have h2 := h1.comp_hasDerivAt t h
  have e : ∀ A : Sq p, A⁻¹ = Ring.inverse A := fun A => nonsing_inv_eq_ringInverse A
  have hf : (fun x => (G x)⁻¹) = Ring.inverse ∘ G := by funext x; exact e _
  rw [hf]
  refine h2.congr_deriv ?_
  have hi : ((u⁻¹ : (Sq p)ˣ) : Sq p) = (G t)⁻¹ := by rw [e, ← hu, Ring.inverse_unit]
  simp [hi, ContinuousLinearMap.mulLeftRight_apply]

/-- The real part of the trace is linear and continuous. -/
noncomputable def reTrL (p : ℕ) : Sq p →ₗ[ℝ] ℝ where
  toFun A := A.trace.re
  map_add' A B := by simp
  map_smul' r A := by simp

theorem hasDerivAt_reTr {p : ℕ} {F : ℝ → Sq p} {F' : Sq p} {t : ℝ} (h : HasDerivAt F F' t) :
    HasDerivAt (fun x => (F x).trace.re) F'.trace.re t :=
  (LinearMap.toContinuousLinearMap (reTrL p)).hasFDerivAt.comp_hasDerivAt t h

theorem hasDerivAt_mul_sq {p : ℕ} {F G : ℝ → Sq p} {F' G' : Sq p} {t : ℝ} (h : HasDerivAt F F' t) (h' : HasDerivAt G G' t) :
    HasDerivAt (fun x => F x * G x) (F' * G t + F t * G') t := h.mul h'

/-- Positive definiteness is an open condition along a continuous family of Hermitian matrices. -/
theorem posDef_open {p : ℕ} {G : ℝ → Sq p} {t : ℝ} (hc : Continuous G) (hH : ∀ x, (G x).IsHermitian) (h : (G t).PosDef) :
    ∀ᶠ x in 𝓝 t, (G x).PosDef := by
  classical
  have hre : ∀ x, ∀ v : Fin p → ℂ, (star v ⬝ᵥ (G x *ᵥ v)) = (((star v ⬝ᵥ (G x *ᵥ v)).re : ℝ) : ℂ) := by
    intro x v
    apply Complex.ext
    · simp
    · have h1 : star (star v ⬝ᵥ (G x *ᵥ v)) = star v ⬝ᵥ (G x *ᵥ v) := by
        conv_rhs => rw [Matrix.dotProduct_mulVec, ← hH x, ← Matrix.star_mulVec, Matrix.star_dotProduct]
      have h2 := congrArg Complex.im h1
      simp only [RCLike.star_def, Complex.conj_im] at h2
      simp only [Complex.ofReal_im]
      linarith
  have hcont : Continuous (fun z : ℝ × (Fin p → ℂ) => (star z.2 ⬝ᵥ (G z.1 *ᵥ z.2)).re) := by
    have h1 : Continuous fun z : ℝ × (Fin p → ℂ) => G z.1 := hc.comp continuous_fst
    have h2 : Continuous fun z : ℝ × (Fin p → ℂ) => G z.1 *ᵥ z.2 := Continuous.matrix_mulVec h1 continuous_snd
    exact Complex.continuous_re.comp (Continuous.dotProduct continuous_snd.star h2)
  have hK : IsCompact (Metric.sphere (0 : Fin p → ℂ) 1) := isCompact_sphere _ _
  have hev := hK.eventually_forall_of_forall_eventually (x₀ := t)
    (P := fun x v => 0 < (star v ⬝ᵥ (G x *ᵥ v)).re) (by
      intro v hv
      have hv0 : v ≠ 0 := by
        rintro rfl
        simp at hv
      have hpos := h.dotProduct_mulVec_pos hv0
      have hpos' : 0 < (star v ⬝ᵥ (G t *ᵥ v)).re := by
        rw [hre t v] at hpos
        exact_mod_cast hpos
      exact (hcont.continuousAt (x := (t, v))).eventually (lt_mem_nhds hpos'))
  filter_upwards [hev] with x hx
  refine PosDef.of_dotProduct_mulVec_pos (hH x) ?_
  intro v hv
  have hn : ‖v‖ ≠ 0 := norm_ne_zero_iff.mpr hv
  have hs := hx (((‖v‖⁻¹ : ℝ) : ℂ) • v) (by
    rw [mem_sphere_zero_iff_norm, norm_smul]
    simp [hn])
  have e : star (((‖v‖⁻¹ : ℝ) : ℂ) • v) ⬝ᵥ (G x *ᵥ (((‖v‖⁻¹ : ℝ) : ℂ) • v)) = ((‖v‖⁻¹ * ‖v‖⁻¹ : ℝ) : ℂ) * (star v ⬝ᵥ (G x *ᵥ v)) := by
    rw [star_smul, Matrix.mulVec_smul, smul_dotProduct, dotProduct_smul]
    simp only [smul_eq_mul, RCLike.star_def, Complex.conj_ofReal]
    push_cast
    ring
  rw [e, Complex.re_ofReal_mul] at hs
  rw [hre x v]
  have hp : 0 < ‖v‖⁻¹ * ‖v‖⁻¹ := by positivity
  have := (pos_iff_pos_of_mul_pos hs).mp hp
  exact_mod_cast this

theorem continuous_rotated {p : ℕ} (P Q R : Sq p) : Continuous fun x => rotated P Q R (Real.cos x) (Real.sin x) :=
  continuous_iff_continuousAt.mpr fun t => (hasDerivAt_rotated P Q R t).continuousAt

theorem hasDerivAt_rotatedDeriv_zero {p : ℕ} (P Q R : Sq p) :
    HasDerivAt (fun x => rotatedDeriv P Q R (Real.cos (2 * x)) (Real.sin (2 * x))) (Q - P) 0 := by
  have h2 : HasDerivAt (fun x : ℝ => 2 * x) 2 0 := by simpa using (hasDerivAt_id (0 : ℝ)).const_mul 2
  have hs : HasDerivAt (fun x => -0.5 * Real.sin (2 * x)) (-1) 0 := by
    refine (h2.sin.const_mul (-0.5)).congr_deriv ?_
    norm_num
  have hc : HasDerivAt (fun x => Real.cos (2 * x)) 0 0 := by
    refine h2.cos.congr_deriv ?_
    norm_num
  refine ((hasDerivAt_smul_sq hs (P + ((-1 : ℝ) : ℂ) • Q)).add (hasDerivAt_smul_sq hc R)).congr_deriv ?_
  ext i j
  simp
  ring

end calculus

/-! ## The specification -/

/-- The moved block `Y cos θ + D sin θ`. -/
noncomputable def Spec.moved {n : Type*} {p : ℕ} (Y D : Matrix n (Fin p) ℂ) (theta : ℝ) : Matrix n (Fin p) ℂ :=
  ((Real.cos theta : ℝ) : ℂ) • Y + ((Real.sin theta : ℝ) : ℂ) • D

/-- The generalised Rayleigh-quotient trace `Re tr[(Z† A Z)(Z† B Z)⁻¹] + λ tr(Z† L Z)` at the moved block `Z`, with the Lagrange multiplier moved along the
same arc. -/
noncomputable def Spec.objective {n : Type*} [Fintype n] {p : ℕ} (A B L : Matrix n n ℂ) (Y D : Matrix n (Fin p) ℂ) (lag dLag theta : ℝ) : ℝ :=
  let Z := Spec.moved Y D theta
  ((Zᴴ * A * Z) * (Zᴴ * B * Z)⁻¹).trace.re + (lag * Real.cos theta + dLag * Real.sin theta) * (Zᴴ * L * Z).trace.re

section bridge

variable {n : Type*} [Fintype n] {p : ℕ}

theorem quad_moved {A : Matrix n n ℂ} (hA : A.IsHermitian) (Y D : Matrix n (Fin p) ℂ) (t : ℝ) :
    (Spec.moved Y D t)ᴴ * A * Spec.moved Y D t = rotated (Yᴴ * (A * Y)) (Dᴴ * (A * D))
      ((0.5 : ℂ) • (Yᴴ * (A * D) + (Yᴴ * (A * D))ᴴ)) (Real.cos t) (Real.sin t) := by
  have hA' : Aᴴ = A := hA
  unfold Spec.moved rotated
  generalize Real.cos t = c
  generalize Real.sin t = s
  have e1 : (Yᴴ * (A * D))ᴴ = Dᴴ * (A * Y) := by
    rw [conjTranspose_mul, conjTranspose_mul, conjTranspose_conjTranspose, hA', Matrix.mul_assoc]
  rw [e1]
  simp only [conjTranspose_add, conjTranspose_smul, Matrix.add_mul, Matrix.mul_add, Matrix.smul_mul, Matrix.mul_smul, smul_add, smul_smul,
    Matrix.mul_assoc, RCLike.star_def, Complex.conj_ofReal]
  ext i j
  simp only [Matrix.add_apply, Matrix.smul_apply, smul_eq_mul]
  push_cast
  ring

theorem herm_sym (Z : Sq p) : ((0.5 : ℂ) • (Z + Zᴴ)).IsHermitian := by
  unfold Matrix.IsHermitian
  rw [conjTranspose_smul, conjTranspose_add, conjTranspose_conjTranspose, add_comm]
  congr 1
  rw [RCLike.star_def]
  apply Complex.ext <;> norm_num

theorem herm_quad {A : Matrix n n ℂ} (hA : A.IsHermitian) (Y : Matrix n (Fin p) ℂ) : (Yᴴ * (A * Y)).IsHermitian := by
  have hA' : Aᴴ = A := hA
  unfold Matrix.IsHermitian
  rw [conjTranspose_mul, conjTranspose_mul, conjTranspose_conjTranspose, hA', Matrix.mul_assoc]

theorem traceData_herm {A B L : Matrix n n ℂ} (hA : A.IsHermitian) (hB : B.IsHermitian) (Y D : Matrix n (Fin p) ℂ) (lag dLag : ℝ) :
    (traceData A B L Y D lag dLag).Herm :=
  ⟨herm_quad hA Y, herm_quad hA D, herm_sym _, herm_quad hB Y, herm_quad hB D, herm_sym _⟩

theorem reTr_sym (Z : Sq p) : ((0.5 : ℂ) • (Z + Zᴴ)).trace.re = Z.trace.re := by
  rw [trace_smul, trace_add, trace_conjTranspose, smul_eq_mul, Complex.mul_re, Complex.add_re, Complex.add_im, RCLike.star_def,
    Complex.conj_re, Complex.conj_im]
  norm_num
  ring

theorem lag_moved {L : Matrix n n ℂ} (hL : L.IsHermitian) (Y D : Matrix n (Fin p) ℂ) (t : ℝ) :
    ((Spec.moved Y D t)ᴴ * L * Spec.moved Y D t).trace.re =
      Real.cos t * Real.cos t * (Yᴴ * (L * Y)).trace.re + Real.sin t * Real.sin t * (Dᴴ * (L * D)).trace.re +
        2 * Real.sin t * Real.cos t * (Yᴴ * (L * D)).trace.re := by
  rw [quad_moved hL]
  unfold rotated
  rw [trace_add, trace_add, trace_smul, trace_smul, trace_smul, Complex.add_re, Complex.add_re, smul_eq_mul, smul_eq_mul, smul_eq_mul,
    Complex.re_ofReal_mul, Complex.re_ofReal_mul, Complex.re_ofReal_mul, reTr_sym]

end bridge

/-- The objective in terms of the prepared matrices. -/
noncomputable def objData {p : ℕ} (d : TraceData p) (t : ℝ) : ℝ :=
  (rotated d.YtAY d.DtAD d.symYtAD (Real.cos t) (Real.sin t) * (rotated d.YtBY d.DtBD d.symYtBD (Real.cos t) (Real.sin t))⁻¹).trace.re +
    (Real.cos t * Real.cos t * d.trYLY + Real.sin t * Real.sin t * d.trDLD + 2 * Real.sin t * Real.cos t * d.trYLD) *
      (Real.cos t * d.lag + Real.sin t * d.dLag)

/-- The derivative computed by `trace_func`, in terms of the prepared matrices. -/
noncomputable def derData {p : ℕ} (d : TraceData p) (t : ℝ) : ℝ :=
  let U := (rotated d.YtBY d.DtBD d.symYtBD (Real.cos t) (Real.sin t))⁻¹
  let S := rotated d.YtAY d.DtAD d.symYtAD (Real.cos t) (Real.sin t)
  let dS := rotatedDeriv d.YtAY d.DtAD d.symYtAD (Real.cos (2 * t)) (Real.sin (2 * t))
  let dG := rotatedDeriv d.YtBY d.DtBD d.symYtBD (Real.cos (2 * t)) (Real.sin (2 * t))
  ((U * dS).trace.re - (U * S * U * dG).trace.re) * 2 +
    (-Real.sin (2 * t) * d.trYLY + Real.sin (2 * t) * d.trDLD + 2 * Real.cos (2 * t) * d.trYLD) * (Real.cos t * d.lag + Real.sin t * d.dLag) +
    (Real.cos t * Real.cos t * d.trYLY + Real.sin t * Real.sin t * d.trDLD + 2 * Real.sin t * Real.cos t * d.trYLD) *
      (-Real.sin t * d.lag + Real.cos t * d.dLag)

theorem inv_herm {p : ℕ} {A : Sq p} (h : A.IsHermitian) : (A⁻¹)ᴴ = A⁻¹ := by
  rw [conjTranspose_nonsing_inv, h]

theorem traceFunc_eq {p : ℕ} {inv : Sq p → Option (Sq p)} (hinv : CholeskyInv inv) {d : TraceData p} (hd : d.Herm) {t : ℝ}
    (hpd : (rotated d.YtBY d.DtBD d.symYtBD (Real.cos t) (Real.sin t)).PosDef) :
    traceFunc inv d t = some (objData d t, derData d t) := by
  have hG := rotated_herm hd.h4 hd.h5 hd.h6 (Real.cos t) (Real.sin t)
  have hS := rotated_herm hd.h1 hd.h2 hd.h3 (Real.cos t) (Real.sin t)
  have h1 := (hinv _ hG).1 hpd
  have hU := inv_herm hG
  have hS' : (rotated d.YtAY d.DtAD d.symYtAD (Real.cos t) (Real.sin t))ᴴ = _ := hS
  unfold traceFunc overlapInv
  simp only [h1, Option.map_some]
  unfold objData derData reTrAtB
  simp only [conjTranspose_mul, hU, hS', conjTranspose_conjTranspose, Matrix.mul_assoc]

theorem objData_hasDeriv {p : ℕ} (d : TraceData p) (t : ℝ) (hu : IsUnit (rotated d.YtBY d.DtBD d.symYtBD (Real.cos t) (Real.sin t))) :
    HasDerivAt (objData d) (derData d t) t := by
  have hG := hasDerivAt_inv (hasDerivAt_rotated d.YtBY d.DtBD d.symYtBD t) hu
  have hS := hasDerivAt_rotated d.YtAY d.DtAD d.symYtAD t
  have h1 := hasDerivAt_reTr (hasDerivAt_mul_sq hS hG)
  have hq := (((hasDerivAt_cos2 t).mul_const d.trYLY).add ((hasDerivAt_sin2 t).mul_const d.trDLD)).add ((hasDerivAt_sc2 t).mul_const d.trYLD)
  have hl := ((Real.hasDerivAt_cos t).mul_const d.lag).add ((Real.hasDerivAt_sin t).mul_const d.dLag)
  have h2 := h1.add (hq.mul hl)
  refine (h2.congr_deriv ?_)
  unfold derData
  simp only
  generalize (rotated d.YtBY d.DtBD d.symYtBD (Real.cos t) (Real.sin t))⁻¹ = U
  generalize rotated d.YtAY d.DtAD d.symYtAD (Real.cos t) (Real.sin t) = S
  generalize rotatedDeriv d.YtAY d.DtAD d.symYtAD (Real.cos (2 * t)) (Real.sin (2 * t)) = dS
  generalize rotatedDeriv d.YtBY d.DtBD d.symYtBD (Real.cos (2 * t)) (Real.sin (2 * t)) = dG
  have e1 : ((2 : ℂ) • dS * U + S * -(U * (2 : ℂ) • dG * U)).trace.re = ((U * dS).trace.re - (U * S * U * dG).trace.re) * 2 := by
    rw [trace_add, Matrix.mul_neg, trace_neg, Matrix.smul_mul, Matrix.mul_smul, Matrix.smul_mul, Matrix.mul_smul, trace_smul, trace_smul,
      trace_mul_comm dS U, Matrix.trace_mul_comm S, Matrix.mul_assoc, Matrix.trace_mul_comm (U * dG)]
    have : U * S * (U * dG) = U * S * U * dG := by rw [Matrix.mul_assoc, Matrix.mul_assoc, Matrix.mul_assoc]
    rw [this]
    simp only [smul_eq_mul, Complex.add_re, Complex.neg_re, Complex.mul_re, Complex.re_ofNat, Complex.im_ofNat]
    ring
  rw [e1]
  simp only [Pi.add_apply]
  ring

/-! ## The theorems -/

section theorems

variable {n : Type*} [Fintype n] {p : ℕ}

theorem objective_eq_data {A B L : Matrix n n ℂ} (hA : A.IsHermitian) (hB : B.IsHermitian) (hL : L.IsHermitian) (Y D : Matrix n (Fin p) ℂ)
    (lag dLag t : ℝ) : Spec.objective A B L Y D lag dLag t = objData (traceData A B L Y D lag dLag) t := by
  unfold Spec.objective objData traceData
  simp only
  rw [quad_moved hA, quad_moved hB, lag_moved hL]
  ring

theorem moved_posDef {B : Matrix n n ℂ} (hB : B.PosDef) {Z : Matrix n (Fin p) ℂ} (hZ : Function.Injective Z.mulVec) : (Zᴴ * B * Z).PosDef :=
  hB.conjTranspose_mul_mul_same hZ

/-- C26: along the line search the code evaluates the generalised Rayleigh quotient of the moved block, and the slope it returns is the derivative of that
function.  `B` positive definite and linearly independent columns of the moved block make the overlap matrix invertible. -/
theorem C26_trace_func {A B L : Matrix n n ℂ} (hA : A.IsHermitian) (hB : B.PosDef) (hL : L.IsHermitian) (Y D : Matrix n (Fin p) ℂ) (lag dLag : ℝ)
    {inv : Sq p → Option (Sq p)} (hinv : CholeskyInv inv) (theta : ℝ) (hZ : Function.Injective (Spec.moved Y D theta).mulVec) :
    ∃ slope, traceFunc inv (traceData A B L Y D lag dLag) theta = some (Spec.objective A B L Y D lag dLag theta, slope) ∧
      HasDerivAt (Spec.objective A B L Y D lag dLag) slope theta := by
  have hd := traceData_herm (L := L) hA hB.isHermitian Y D lag dLag
  have hpd := moved_posDef hB hZ
  rw [quad_moved hB.isHermitian] at hpd
  refine ⟨derData (traceData A B L Y D lag dLag) theta, ?_, ?_⟩
  · rw [traceFunc_eq hinv hd hpd, objective_eq_data hA hB.isHermitian hL]
  · have hf : Spec.objective A B L Y D lag dLag = objData (traceData A B L Y D lag dLag) := by
      funext t
      exact objective_eq_data hA hB.isHermitian hL Y D lag dLag t
    rw [hf]
    exact objData_hasDeriv _ _ hpd.isUnit

/-- C26: the evaluation also succeeds in a whole neighbourhood of every angle at which the moved block has independent columns. -/
theorem C26_defined_nearby {A B L : Matrix n n ℂ} (hA : A.IsHermitian) (hB : B.PosDef) (Y D : Matrix n (Fin p) ℂ) (lag dLag : ℝ)
    {inv : Sq p → Option (Sq p)} (hinv : CholeskyInv inv) (theta : ℝ) (hZ : Function.Injective (Spec.moved Y D theta).mulVec) :
    ∀ᶠ t in 𝓝 theta, (traceFunc inv (traceData A B L Y D lag dLag) t).isSome := by
  have hd := traceData_herm (L := L) hA hB.isHermitian Y D lag dLag
  have hpd := moved_posDef hB hZ
  rw [quad_moved hB.isHermitian] at hpd
  have hop := posDef_open (continuous_rotated _ _ _) (fun x => rotated_herm hd.h4 hd.h5 hd.h6 _ _) hpd
  filter_upwards [hop] with t ht
  rw [traceFunc_eq hinv hd ht]
  rfl

theorem rotated_zero (P Q R : Sq p) : rotated P Q R (Real.cos 0) (Real.sin 0) = P := by
  unfold rotated
  simp

theorem rotatedDeriv_zero (P Q R : Sq p) : rotatedDeriv P Q R (Real.cos (2 * 0)) (Real.sin (2 * 0)) = R := by
  unfold rotatedDeriv
  simp

theorem derData_zero {d : TraceData p} (hd : d.Herm) : derData d 0 = newtonDE d d.YtBY⁻¹ := by
  unfold derData newtonDE reTrAtB
  simp only [rotated_zero, rotatedDeriv_zero]
  have hU := inv_herm hd.h4
  have h1 : d.YtAYᴴ = d.YtAY := hd.h1
  have h6 : d.symYtBDᴴ = d.symYtBD := hd.h6
  simp only [conjTranspose_mul, hU, h1, h6, Matrix.mul_assoc]
  simp
  ring

set_option maxHeartbeats 800000 in
theorem derData_deriv_zero {d : TraceData p} (hd : d.Herm) (hu : IsUnit d.YtBY) :
    HasDerivAt (derData d) (newtonD2E d d.YtBY⁻¹ - 3 * d.lag * d.trYLY) 0 := by
  have hu0 : IsUnit (rotated d.YtBY d.DtBD d.symYtBD (Real.cos 0) (Real.sin 0)) := by rw [rotated_zero]; exact hu
  have hG := hasDerivAt_inv (hasDerivAt_rotated d.YtBY d.DtBD d.symYtBD 0) hu0
  have hS := hasDerivAt_rotated d.YtAY d.DtAD d.symYtAD 0
  have hdS := hasDerivAt_rotatedDeriv_zero d.YtAY d.DtAD d.symYtAD
  have hdG := hasDerivAt_rotatedDeriv_zero d.YtBY d.DtBD d.symYtBD
  have hA := hasDerivAt_reTr (hasDerivAt_mul_sq hG hdS)
  have hB := hasDerivAt_reTr (hasDerivAt_mul_sq (hasDerivAt_mul_sq (hasDerivAt_mul_sq hG hS) hG) hdG)
  have hq := (((hasDerivAt_cos2 0).mul_const d.trYLY).add ((hasDerivAt_sin2 0).mul_const d.trDLD)).add ((hasDerivAt_sc2 0).mul_const d.trYLD)
  have hl := ((Real.hasDerivAt_cos 0).mul_const d.lag).add ((Real.hasDerivAt_sin 0).mul_const d.dLag)
  have hl' := ((Real.hasDerivAt_sin 0).neg.mul_const d.lag).add ((Real.hasDerivAt_cos 0).mul_const d.dLag)
  have h2 : HasDerivAt (fun x : ℝ => 2 * x) 2 0 := by simpa using (hasDerivAt_id (0 : ℝ)).const_mul 2
  have hq' := ((h2.sin.neg.mul_const d.trYLY).add (h2.sin.mul_const d.trDLD)).add ((h2.cos.const_mul 2).mul_const d.trYLD)
  have h := (((hA.sub hB).mul_const 2).add (hq'.mul hl)).add (hq.mul hl')
  refine h.congr_deriv ?_
  have r1 : ∀ P Q R : Sq p, rotated P Q R 1 0 = P := fun P Q R => by simpa using rotated_zero P Q R
  have r2 : ∀ P Q R : Sq p, rotatedDeriv P Q R 1 0 = R := fun P Q R => by simpa using rotatedDeriv_zero P Q R
  simp only [Pi.add_apply, Pi.neg_apply, mul_zero, Real.cos_zero, Real.sin_zero, r1, r2]
  unfold newtonD2E reTrAtB
  have hU := inv_herm hd.h4
  have h1 : d.YtAYᴴ = d.YtAY := hd.h1
  have h5 : d.DtBDᴴ = d.DtBD := hd.h5
  have h6 : d.symYtBDᴴ = d.symYtBD := hd.h6
  have hdet : IsUnit d.YtBY.det := (Matrix.isUnit_iff_isUnit_det _).mp hu
  have hUG : d.YtBY⁻¹ * d.YtBY = 1 := Matrix.nonsing_inv_mul _ hdet
  have hGU : d.YtBY * d.YtBY⁻¹ = 1 := Matrix.mul_nonsing_inv _ hdet
  simp only [conjTranspose_mul, conjTranspose_add, conjTranspose_smul, hU, h1, h5, h6, RCLike.star_def, Complex.conj_ofReal]
  generalize d.YtBY⁻¹ = U at *
  generalize d.YtBY = G at *
  generalize d.YtAY = P at *
  generalize d.DtAD = Q at *
  generalize d.symYtAD = R at *
  generalize d.DtBD = N at *
  generalize d.symYtBD = T at *
  have c1 : (U * (T * (U * R))).trace = (U * (R * (U * T))).trace := by
    rw [← Matrix.mul_assoc, Matrix.trace_mul_comm, Matrix.mul_assoc]
  have c2 : (U * (T * (U * (P * (U * T))))).trace = (U * (P * (U * (T * (U * T))))).trace := by
    rw [← Matrix.mul_assoc, Matrix.trace_mul_comm]
    simp only [Matrix.mul_assoc]
  have c3 : (U * (P * (U * G))).trace = (U * P).trace := by rw [hUG, Matrix.mul_one]
  simp only [Matrix.mul_sub, Matrix.mul_add, Matrix.add_mul, Matrix.mul_neg, Matrix.neg_mul, Matrix.smul_mul, Matrix.mul_smul, Matrix.mul_assoc,
    trace_add, trace_sub, trace_neg, trace_smul, Complex.add_re, Complex.sub_re, Complex.neg_re, smul_eq_mul, Complex.re_ofReal_mul, c1, c2, c3]
  have t2 : ∀ z : ℂ, ((2 : ℂ) * z).re = 2 * z.re := fun z => by simp
  simp only [t2]
  ring

/-- C26: the values the solver hands to the line search and to its Newton guess: the trace `E` and its slope `dE` are the value and the derivative of the
objective at the current block, and `d2E` is its second derivative when no Lagrange term is used (`L = 0`). -/
theorem C26_newton {A B L : Matrix n n ℂ} (hA : A.IsHermitian) (hB : B.PosDef) (hL : L.IsHermitian) (Y D : Matrix n (Fin p) ℂ) (lag dLag : ℝ)
    (hY : Function.Injective Y.mulVec) :
    let d := traceData A B L Y D lag dLag
    traceE d d.YtBY⁻¹ = Spec.objective A B L Y D lag dLag 0 ∧
      HasDerivAt (Spec.objective A B L Y D lag dLag) (newtonDE d d.YtBY⁻¹) 0 ∧
      HasDerivAt (deriv (Spec.objective A B L Y D lag dLag)) (newtonD2E d d.YtBY⁻¹ - 3 * lag * (Yᴴ * L * Y).trace.re) 0 := by
  intro d
  have hd : d.Herm := traceData_herm (L := L) hA hB.isHermitian Y D lag dLag
  have hf : Spec.objective A B L Y D lag dLag = objData d := by
    funext t
    exact objective_eq_data hA hB.isHermitian hL Y D lag dLag t
  have hpd0 : d.YtBY.PosDef := by
    have := moved_posDef hB hY
    rwa [Matrix.mul_assoc] at this
  have hpd : (rotated d.YtBY d.DtBD d.symYtBD (Real.cos 0) (Real.sin 0)).PosDef := by rw [rotated_zero]; exact hpd0
  refine ⟨?_, ?_, ?_⟩
  · rw [hf]
    unfold objData traceE
    rw [rotated_zero, rotated_zero]
    simp
    ring
  · rw [hf, ← derData_zero hd]
    exact objData_hasDeriv _ _ hpd.isUnit
  · have hop := posDef_open (continuous_rotated _ _ _) (fun x => rotated_herm hd.h4 hd.h5 hd.h6 _ _) hpd
    have hev : deriv (objData d) =ᶠ[𝓝 0] derData d := by
      filter_upwards [hop] with t ht
      exact (objData_hasDeriv d t ht.isUnit).deriv
    rw [hf]
    have h := (derData_deriv_zero hd hpd0.isUnit).congr_of_eventuallyEq hev
    refine h.congr_deriv ?_
    show _ - 3 * lag * (Yᴴ * (L * Y)).trace.re = _
    rw [Matrix.mul_assoc Yᴴ L Y]

/-- C26: the function handed to the line search returns, at angle zero, exactly the trace and the slope passed as the starting values. -/
theorem C26_start {A B L : Matrix n n ℂ} (hA : A.IsHermitian) (hB : B.PosDef) (Y D : Matrix n (Fin p) ℂ) (lag dLag : ℝ)
    {inv : Sq p → Option (Sq p)} (hinv : CholeskyInv inv) (hY : Function.Injective Y.mulVec) :
    let d := traceData A B L Y D lag dLag
    traceFunc inv d 0 = some (traceE d d.YtBY⁻¹, newtonDE d d.YtBY⁻¹) := by
  intro d
  have hd : d.Herm := traceData_herm (L := L) hA hB.isHermitian Y D lag dLag
  have hpd0 : d.YtBY.PosDef := by
    have := moved_posDef hB hY
    rwa [Matrix.mul_assoc] at this
  have hpd : (rotated d.YtBY d.DtBD d.symYtBD (Real.cos 0) (Real.sin 0)).PosDef := by rw [rotated_zero]; exact hpd0
  rw [traceFunc_eq hinv hd hpd, derData_zero hd]
  congr 2
  unfold objData traceE
  rw [rotated_zero, rotated_zero]
  simp
  ring

/-- The exact line minimisation of one iteration, eigensolver.c:668-748, followed by the move of the block (`evectmatrix_aXpbY(cos(theta), Y, sin(theta), D)`)
and of the multiplier.  `k` bounds the number of evaluations of the line search; `none`: the line search is still running after `k` evaluations, or the program
aborted.  The evaluation of the trace is taken to succeed (`C26_trace_func`). -/
noncomputable def exactStep (inv : Sq p → Option (Sq p)) (A B L : Matrix n n ℂ) (Y D : Matrix n (Fin p) ℂ) (lag dLag prevTheta tol : ℝ) (k : ℕ)
    (w : Linmin.Saved) : Option (Matrix n (Fin p) ℂ × ℝ × ℝ) :=
  let d := traceData A B L Y D lag dLag
  let U := d.YtBY⁻¹
  let E := traceE d U
  let dE := newtonDE d U
  let theta := Linmin.thetaGuess dE (newtonD2E d U) prevTheta
  match Linmin.linmin (Linmin.solverPar tol dE) (fun t => (traceFunc inv d t).getD (0, 0)) k theta E dE w with
  | .done x _ _ _ => some (Spec.moved Y D x, lag * Real.cos x + dLag * Real.sin x, x)
  | _ => none

/-- C26 (one iteration): an exact line minimisation of the eigensolver never raises the trace: the objective of the moved block (with the moved multiplier) is at
most the objective of the old one, if both blocks are independent (otherwise the next iteration starts afresh).  The moved block is on the arc through `Y` and `D`, at an angle of at most π. -/
theorem C26_step {A B L : Matrix n n ℂ} (hA : A.IsHermitian) (hB : B.PosDef) (hL : L.IsHermitian) (Y D : Matrix n (Fin p) ℂ) (lag dLag prevTheta tol : ℝ)
    (k : ℕ) (w : Linmin.Saved) {inv : Sq p → Option (Sq p)} (hinv : CholeskyInv inv) (hY : Function.Injective Y.mulVec)
    (htol : 0 ≤ tol) (hprev : |prevTheta| ≤ Real.pi) {Y' : Matrix n (Fin p) ℂ} {lag' theta : ℝ}
    (h : exactStep inv A B L Y D lag dLag prevTheta tol (k + 1) w = some (Y', lag', theta)) (hY' : Function.Injective Y'.mulVec) :
    |theta| ≤ Real.pi ∧ Y' = Spec.moved Y D theta ∧
      ((Y'ᴴ * A * Y') * (Y'ᴴ * B * Y')⁻¹).trace.re + lag' * (Y'ᴴ * L * Y').trace.re ≤
        ((Yᴴ * A * Y) * (Yᴴ * B * Y)⁻¹).trace.re + lag * (Yᴴ * L * Y).trace.re := by
  unfold exactStep at h
  simp only at h
  have hY0 : Spec.moved Y D 0 = Y := by simp [Spec.moved]
  have hst := C26_start (L := L) hA hB Y D lag dLag hinv hY
  obtain ⟨-, h24⟩ := (Linmin.C24_eigensolver (fun t => (traceFunc inv (traceData A B L Y D lag dLag) t).getD (0, 0)) k
    (traceE (traceData A B L Y D lag dLag) (traceData A B L Y D lag dLag).YtBY⁻¹)
    (newtonDE (traceData A B L Y D lag dLag) (traceData A B L Y D lag dLag).YtBY⁻¹)
    (newtonD2E (traceData A B L Y D lag dLag) (traceData A B L Y D lag dLag).YtBY⁻¹) prevTheta tol _ w
    (by simp only [hst, Option.getD_some]) htol hprev rfl)
  split at h
  · rename_i x f g t hx
    obtain ⟨hxp, hfx, hle⟩ := h24 hx
    simp only [Option.some.injEq, Prod.mk.injEq] at h
    obtain ⟨rfl, rfl, rfl⟩ := h
    refine ⟨hxp, rfl, ?_⟩
    obtain ⟨sl, hsl, -⟩ := C26_trace_func hA hB hL Y D lag dLag hinv x hY'
    simp only [hsl, Option.getD_some, Prod.mk.injEq] at hfx
    have e0 := (C26_newton hA hB hL Y D lag dLag hY).1
    rw [e0, ← hfx.1] at hle
    unfold Spec.objective at hle
    simp only [hY0, Real.cos_zero, Real.sin_zero, mul_one, mul_zero, add_zero] at hle
    exact hle
  · exact absurd h (by simp)

end theorems

/-! ## Non-vacuity and refutations -/

/-- The Cholesky contract can be met. -/
theorem exists_choleskyInv (p : ℕ) : ∃ inv : Sq p → Option (Sq p), CholeskyInv inv := by
  classical
  refine ⟨fun A => if A.PosDef then some A⁻¹ else none, fun A _ => ⟨fun h => by simp [h], fun h => by simp [h]⟩⟩

/-- The one-dimensional block used in the examples. -/
def oneBlock (z : ℂ) : Matrix (Fin 1) (Fin 1) ℂ := Matrix.of fun _ _ => z

theorem oneBlock_injective {z : ℂ} (hz : z ≠ 0) : Function.Injective (oneBlock z).mulVec := by
  intro u v h
  funext i
  have := congrFun h i
  simp [oneBlock, Matrix.mulVec, dotProduct] at this
  have hi : i = 0 := Subsingleton.elim _ _
  rcases this with h | h
  · rw [hi]; exact h
  · exact absurd h hz

/-- Non-vacuity: a block of two vectors and a direction such that the moved block is independent at every angle: `Y = (e₀)`, `D = (e₁)` in `ℂ²`. -/
example : ∀ t, Function.Injective
    (Spec.moved (Matrix.of ![![1], ![0]] : Matrix (Fin 2) (Fin 1) ℂ) (Matrix.of ![![0], ![1]]) t).mulVec := by
  intro t u v h
  funext i
  have hi : i = 0 := Subsingleton.elim _ _
  have h0 := congrFun h 0
  have h1 := congrFun h 1
  simp [Spec.moved, Matrix.mulVec, dotProduct] at h0 h1
  rw [hi]
  rcases h0 with h0 | h0
  · exact h0
  · rcases h1 with h1 | h1
    · exact h1
    · exfalso
      have e0 : Real.cos t = 0 := by exact_mod_cast h0
      have e1 : Real.sin t = 0 := by exact_mod_cast h1
      have := Real.sin_sq_add_cos_sq t
      rw [e0, e1] at this
      norm_num at this

example : (1 : Matrix (Fin 2) (Fin 2) ℂ).PosDef := Matrix.PosDef.one

/-- The second derivative used for the Newton guess is wrong in the presence of a Lagrange term (it misses `-3 λ tr(Y† L Y)`): for the 1×1 problem
`A = B = L = Y = D = 1`, `λ = 1` it is not the second derivative of the objective. -/
theorem C26_newton_lagrange_refuted :
    let d := traceData (oneBlock 1) (oneBlock 1) (oneBlock 1) (oneBlock 1) (oneBlock 1) 1 0
    ¬ HasDerivAt (deriv (Spec.objective (oneBlock 1) (oneBlock 1) (oneBlock 1) (oneBlock 1) (oneBlock 1) 1 0)) (newtonD2E d d.YtBY⁻¹) 0 := by
  intro d h
  have e1 : oneBlock 1 = 1 := by ext i j; simp [oneBlock, Matrix.one_apply, Subsingleton.elim i j]
  have hH : (oneBlock 1).IsHermitian := by rw [e1]; exact Matrix.isHermitian_one
  have hP : (oneBlock 1).PosDef := by rw [e1]; exact Matrix.PosDef.one
  have h2 := (C26_newton hH hP hH (oneBlock 1) (oneBlock 1) 1 0 (oneBlock_injective one_ne_zero)).2.2
  have h3 := h.unique h2
  have : ((oneBlock 1)ᴴ * oneBlock 1 * oneBlock 1).trace.re = 1 := by rw [e1]; simp
  rw [this] at h3
  linarith

/-- The Taylor expansions meant for "c or s is small" are also used when neither is: the tests compare `c` with `1e-4 s` without absolute values.  For
`A = B = Y = D = 1` and `θ = 3π/4` the moved block is zero, so there is no Rayleigh quotient, `|cos θ|` and `|sin θ|` exceed 1/2, and still a value is
returned. -/
theorem C26_fallback_refuted {inv : Sq 1 → Option (Sq 1)} (hinv : CholeskyInv inv) :
    ∃ theta : ℝ, |Real.cos theta| > 1 / 2 ∧ |Real.sin theta| > 1 / 2 ∧ Spec.moved (oneBlock 1) (oneBlock 1) theta = 0 ∧
      (traceFunc inv (traceData (oneBlock 1) (oneBlock 1) 0 (oneBlock 1) (oneBlock 1) 0 0) theta).isSome := by
  have e1 : oneBlock 1 = 1 := by ext i j; simp [oneBlock, Matrix.one_apply, Subsingleton.elim i j]
  have hc : Real.cos (3 * Real.pi / 4) = -(√2 / 2) := by
    rw [show 3 * Real.pi / 4 = Real.pi - Real.pi / 4 by ring, Real.cos_pi_sub, Real.cos_pi_div_four]
  have hs : Real.sin (3 * Real.pi / 4) = √2 / 2 := by
    rw [show 3 * Real.pi / 4 = Real.pi - Real.pi / 4 by ring, Real.sin_pi_sub, Real.sin_pi_div_four]
  have h1 : (1 : ℝ) < √2 := by
    rw [Real.lt_sqrt (by norm_num)]; norm_num
  have hsq : √2 * √2 = 2 := Real.mul_self_sqrt (by norm_num)
  refine ⟨3 * Real.pi / 4, ?_, ?_, ?_, ?_⟩
  · rw [hc, abs_neg, abs_of_pos (by linarith)]; linarith
  · rw [hs, abs_of_pos (by linarith)]; linarith
  · unfold Spec.moved
    rw [hc, hs]
    simp
  · have hd := traceData_herm (L := 0) (lag := 0) (dLag := 0) (Matrix.isHermitian_one (n := Fin 1) (α := ℂ)) Matrix.isHermitian_one (1 : Sq 1) (1 : Sq 1)
    rw [e1]
    set d : TraceData 1 := traceData (1 : Sq 1) 1 0 (1 : Sq 1) (1 : Sq 1) 0 0 with hdd
    have g1 : d.YtBY = 1 := by simp [hdd, traceData]
    have g2 : d.DtBD = 1 := by simp [hdd, traceData]
    have g3 : d.symYtBD = 1 := by
      simp only [hdd, traceData]
      ext i j
      fin_cases i; fin_cases j
      simp
      norm_num
    have hrot : rotated d.YtBY d.DtBD d.symYtBD (Real.cos (3 * Real.pi / 4)) (Real.sin (3 * Real.pi / 4)) = 0 := by
      rw [g1, g2, g3, hc, hs]
      unfold rotated
      rw [← add_smul, ← add_smul]
      have : ((-(√2 / 2) * -(√2 / 2) : ℝ) : ℂ) + ((√2 / 2 * (√2 / 2) : ℝ) : ℂ) + ((2 * (√2 / 2) * -(√2 / 2) : ℝ) : ℂ) = 0 := by
        push_cast
        ring
      rw [this, zero_smul]
    have hn : inv (rotated d.YtBY d.DtBD d.symYtBD (Real.cos (3 * Real.pi / 4)) (Real.sin (3 * Real.pi / 4))) = none := by
      rw [hrot]
      refine (hinv 0 Matrix.isHermitian_zero).2 ?_
      intro h
      have := h.isUnit
      simp at this
    have hi : inv d.DtBD = some (1 : Sq 1)⁻¹ := by
      rw [g2]; exact (hinv 1 Matrix.isHermitian_one).1 Matrix.PosDef.one
    unfold traceFunc overlapInv
    simp only [hn, hi, Option.map_some]
    rw [if_pos]
    · rfl
    · rw [hc, hs]
      constructor
      · linarith
      · linarith

/-- An inversion that may give up on any matrix (rounding), but returns inverses when it does not. -/
def SoundInv {p : ℕ} (inv : Sq p → Option (Sq p)) : Prop :=
  ∀ A S : Sq p, A.IsHermitian → inv A = some S → IsUnit A ∧ S = A⁻¹

theorem expansion_residual {p : ℕ} {P Q R : Sq p} (hQ : IsUnit Q) (c s : ℝ) (hs : s ≠ 0) :
    rotated P Q R c s * (((1 / (s * s) : ℝ) : ℂ) • Q⁻¹ + ((-2 * c / (s * s * s) : ℝ) : ℂ) • (Q⁻¹ * R * Q⁻¹)) =
      1 + (((c / s) ^ 2 : ℝ) : ℂ) • (P * Q⁻¹ - (4 : ℂ) • (R * Q⁻¹ * R * Q⁻¹) - ((2 * (c / s) : ℝ) : ℂ) • (P * Q⁻¹ * R * Q⁻¹)) := by
  have h1 : Q * Q⁻¹ = 1 := Matrix.mul_nonsing_inv _ ((Matrix.isUnit_iff_isUnit_det _).mp hQ)
  have h2 : Q * (Q⁻¹ * R * Q⁻¹) = R * Q⁻¹ := by
    rw [← Matrix.mul_assoc, ← Matrix.mul_assoc, h1, Matrix.one_mul]
  have hs' : (s : ℂ) ≠ 0 := by exact_mod_cast hs
  unfold rotated
  simp only [Matrix.add_mul, Matrix.mul_add, Matrix.smul_mul, Matrix.mul_smul, h1, h2]
  have e1 : P * (Q⁻¹ * R * Q⁻¹) = P * Q⁻¹ * R * Q⁻¹ := by simp only [Matrix.mul_assoc]
  have e2 : R * (Q⁻¹ * R * Q⁻¹) = R * Q⁻¹ * R * Q⁻¹ := by simp only [Matrix.mul_assoc]
  rw [e1, e2]
  generalize P * Q⁻¹ * R * Q⁻¹ = V
  generalize R * Q⁻¹ * R * Q⁻¹ = W
  generalize P * Q⁻¹ = T
  generalize R * Q⁻¹ = Z
  push_cast
  simp only [smul_smul, smul_sub]
  match_scalars <;> field_simp <;> ring

/-- C26, when the inversion of the overlap gives up near an end of the quarter turn: the matrix used instead is the inverse of the overlap up to second
order in the small one of `c` and `s` over the other, with the stated remainder. -/
theorem C26_expansion {p : ℕ} {inv : Sq p → Option (Sq p)} (hinv : SoundInv inv) {d : TraceData p} (hd : d.Herm) {c s : ℝ} {X : Sq p}
    (hfail : inv (rotated d.YtBY d.DtBD d.symYtBD c s) = none) (hX : overlapInv inv d c s = some X) :
    (c < 0.0001 * s → s ≠ 0 → rotated d.YtBY d.DtBD d.symYtBD c s * X =
      1 + (((c / s) ^ 2 : ℝ) : ℂ) • (d.YtBY * d.DtBD⁻¹ - (4 : ℂ) • (d.symYtBD * d.DtBD⁻¹ * d.symYtBD * d.DtBD⁻¹) -
        ((2 * (c / s) : ℝ) : ℂ) • (d.YtBY * d.DtBD⁻¹ * d.symYtBD * d.DtBD⁻¹))) ∧
    (s < 0.0001 * c → 0 < c → rotated d.YtBY d.DtBD d.symYtBD c s * X =
      1 + (((s / c) ^ 2 : ℝ) : ℂ) • (d.DtBD * d.YtBY⁻¹ - (4 : ℂ) • (d.symYtBD * d.YtBY⁻¹ * d.symYtBD * d.YtBY⁻¹) -
        ((2 * (s / c) : ℝ) : ℂ) • (d.DtBD * d.YtBY⁻¹ * d.symYtBD * d.YtBY⁻¹))) := by
  have hR : d.symYtBDᴴ = d.symYtBD := hd.h6
  unfold overlapInv at hX
  rw [hfail] at hX
  simp only at hX
  constructor
  · intro hc hs
    by_cases h1 : c < 0.0001 * s ∧ c ≠ 0
    · rw [if_pos h1] at hX
      obtain ⟨S1, hS, rfl⟩ := Option.map_eq_some_iff.mp hX
      obtain ⟨hu, rfl⟩ := hinv _ _ hd.h5 hS
      rw [hR, inv_herm hd.h5]
      exact expansion_residual hu c s hs
    · have hc0 : c = 0 := by
        by_contra h
        exact h1 ⟨hc, h⟩
      rw [if_neg h1] at hX
      subst hc0
      have : ¬ (s < 0.0001 * 0 ∧ s ≠ 0) := by
        rintro ⟨h, -⟩
        linarith
      rw [if_neg this] at hX
      cases hX
  · intro hs hc
    have h1 : ¬ (c < 0.0001 * s ∧ c ≠ 0) := by
      rintro ⟨h, -⟩
      nlinarith
    rw [if_neg h1] at hX
    by_cases h2 : s < 0.0001 * c ∧ s ≠ 0
    · rw [if_pos h2] at hX
      obtain ⟨S1, hS, rfl⟩ := Option.map_eq_some_iff.mp hX
      obtain ⟨hu, rfl⟩ := hinv _ _ hd.h4 hS
      rw [hR, inv_herm hd.h4]
      have e : rotated d.YtBY d.DtBD d.symYtBD c s = rotated d.DtBD d.YtBY d.symYtBD s c := by
        unfold rotated
        rw [add_comm (((c * c : ℝ) : ℂ) • d.YtBY), show 2 * s * c = 2 * c * s by ring]
      rw [e]
      exact expansion_residual hu s c (ne_of_gt hc)
    · rw [if_neg h2] at hX
      cases hX

/-- The hypotheses of `C26_expansion` are met: an inversion that only accepts the identity, `Y† B Y = 2`, `D† B D = 1`, `c = 1/100000`, `s = 1`. -/
example : ∃ (inv : Sq 1 → Option (Sq 1)) (d : TraceData 1), SoundInv inv ∧ d.Herm ∧
    inv (rotated d.YtBY d.DtBD d.symYtBD (1 / 100000) 1) = none ∧ (overlapInv inv d (1 / 100000) 1).isSome := by
  classical
  refine ⟨fun A => if A = 1 then some 1 else none, ⟨1, 1, 0, (2 : ℂ) • 1, 1, 0, 0, 0, 0, 0, 0⟩, ?_⟩
  have hne : rotated ((2 : ℂ) • (1 : Sq 1)) 1 0 (1 / 100000) 1 ≠ 1 := by
    intro h
    have := congrFun (congrFun h 0) 0
    simp [rotated] at this
  refine ⟨?_, ⟨?_, ?_, ?_, ?_, ?_, ?_⟩, ?_, ?_⟩
  rotate_left
  · exact Matrix.isHermitian_one
  · exact Matrix.isHermitian_one
  · exact Matrix.isHermitian_zero
  · have := herm_smul (Matrix.isHermitian_one (n := Fin 1) (α := ℂ)) 2
    push_cast at this
    exact this
  · exact Matrix.isHermitian_one
  · exact Matrix.isHermitian_zero
  · exact if_neg hne
  · unfold overlapInv
    simp only [if_neg hne]
    rw [if_pos (by norm_num), if_pos trivial]
    rfl
  · intro A S _ h
    by_cases hA : A = 1
    · subst hA
      simp only [if_true, Option.some.injEq] at h
      subst h
      exact ⟨isUnit_one, by simp⟩
    · simp only [if_neg hA] at h
      cases h

end Mpb.Solver

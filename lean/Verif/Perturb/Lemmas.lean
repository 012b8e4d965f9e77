import Verif.Perturb.Matrix
import Verif.Perturb.Spec
import Verif.Invariance.Slope
import Verif.Flux.Props
import Mathlib.Analysis.Calculus.Deriv.Star

/-! # Derivatives of the matrices of a problem, and its modes as eigenvectors -/

namespace Mpb.Perturb
open Mpb.Maxwell Mpb.Maxwell.Spec Mpb.Invariance Mpb.Invariance.Spec Mpb.Invariance.MinMax Spec
open Matrix
open scoped ComplexOrder

theorem herm_mulVec (a b : V3 ℂ) (e : HMat) : herm a (e.mulVec b) =
    (starRingEnd ℂ) a.x * ((e.m00 : ℂ) * b.x + e.m01 * b.y + e.m02 * b.z) +
    (starRingEnd ℂ) a.y * (star e.m01 * b.x + (e.m11 : ℂ) * b.y + e.m12 * b.z) +
    (starRingEnd ℂ) a.z * (star e.m02 * b.x + star e.m12 * b.y + (e.m22 : ℂ) * b.z) := by
  apply Complex.ext <;> simp [herm, HMat.mulVec] <;> ring

theorem herm_deriv {f : ℝ → HMat} {f' : HMat} (h : TensorDeriv f f') (a b : V3 ℂ) :
    HasDerivAt (fun t => herm a ((f t).mulVec b)) (herm a (f'.mulVec b)) 0 := by
  simp only [herm_mulVec]
  have r0 := h.m00.ofReal_comp
  have r1 := h.m11.ofReal_comp
  have r2 := h.m22.ofReal_comp
  have s01 := h.m01.star
  have s02 := h.m02.star
  have s12 := h.m12.star
  exact (((((r0.mul_const _).add (h.m01.mul_const _)).add (h.m02.mul_const _)).const_mul _).add
    ((((s01.mul_const _).add (r1.mul_const _)).add (h.m12.mul_const _)).const_mul _)).add
    ((((s02.mul_const _).add (s12.mul_const _)).add (r2.mul_const _)).const_mul _)

theorem gridForm_deriv {N : ℕ} {f : ℝ → ℕ → HMat} {f' : ℕ → HMat} (h : ∀ r < N, TensorDeriv (fun t => f t r) (f' r)) (a b : ℕ → V3 ℂ) :
    HasDerivAt (fun t => gridForm N (f t) a b) (gridForm N f' a b) 0 := by
  unfold gridForm
  refine HasDerivAt.const_mul _ (HasDerivAt.fun_sum fun r hr => ?_)
  exact herm_deriv (h r (Finset.mem_range.1 hr)) _ _

theorem entry {N : ℕ} (o : PairOp N) (i j : Fin (N * 2)) :
    o.mat i j = inner N (pairs (padded (Pi.single i 1))) (o.T (pairs (padded (Pi.single j 1)))) := by
  rw [← o.dot, firstOf_padded, firstOf_padded, Matrix.mulVec_single_one]
  simp [dotProduct, Pi.single_apply]

theorem entry_curl (P : Problem) {K : ℕ → V3 ℝ} (hK : ∀ G < P.data.N, IsBasis (K G) (P.data.kpg G)) (i j : Fin (P.data.N * 2)) :
    (curlOp P).mat i j = gridForm P.data.N P.epsInv (curlField P.data K (pairs (padded (Pi.single i 1)))) (curlField P.data K (pairs (padded (Pi.single j 1)))) := by
  rw [entry]
  exact inner_curl (data_adjoint P) hK _ _ _

theorem entry_mu (P : Problem) (i j : Fin (P.data.N * 2)) :
    (muOp P).mat i j = gridForm P.data.N (invMu P) (plainField P.data (pairs (padded (Pi.single i 1)))) (plainField P.data (pairs (padded (Pi.single j 1)))) := by
  rw [entry]
  exact inner_muOp P _ _

theorem mul_deriv {m : ℕ} {A B : ℝ → Matrix (Fin m) (Fin m) ℂ} {A' B' : Matrix (Fin m) (Fin m) ℂ}
    (hA : ∀ p q, HasDerivAt (fun t => A t p q) (A' p q) 0) (hB : ∀ p q, HasDerivAt (fun t => B t p q) (B' p q) 0) (p q : Fin m) :
    HasDerivAt (fun t => (A t * B t) p q) ((A' * B 0 + A 0 * B') p q) 0 := by
  simp only [Matrix.mul_apply, Matrix.add_apply, ← Finset.sum_add_distrib]
  exact HasDerivAt.fun_sum fun r _ => (hA p r).mul (hB r q)

/-- The modes are the eigenvectors of the pencil `M C M`, `M`. -/
theorem modes_pencil2 (P : Problem) (hn : 0 < P.nfb) (lam : ℝ) (n : ℕ) : ModesUpTo P.data lam n ↔
    ∃ f : Fin n → Fin (P.data.N * 2) → ℂ, LinearIndependent ℂ f ∧
      ∀ i, ∃ mu : ℝ, mu ≤ lam ∧ ((muOp P).mat * (curlOp P).mat * (muOp P).mat).mulVec (f i) = (mu : ℂ) • (muOp P).mat.mulVec (f i) := by
  constructor
  · rintro ⟨X, hli, hX⟩
    refine ⟨fun i => firstOf _ (X i), ?_, fun i => ?_⟩
    · rw [Fintype.linearIndependent_iff]
      intro c hc i
      refine hli c (fun a ha => ?_) i
      have h2 := congrFun hc ⟨a, ha⟩
      rw [Finset.sum_apply] at h2
      rw [← h2.trans (Pi.zero_apply _)]
      rfl
    · obtain ⟨mu, hle, hm⟩ := hX i
      refine ⟨mu, hle, ?_⟩
      rw [← mulVec_mulVec, ← mulVec_mulVec]
      exact ((isMode_matrix P hn mu _).1 hm).2
  · rintro ⟨f, hf, hev⟩
    refine ⟨fun i => padded (f i), fun c hc i => ?_, fun i => ?_⟩
    · refine Fintype.linearIndependent_iff.1 hf c ?_ i
      funext a
      have := hc a a.2
      rw [Finset.sum_apply, Pi.zero_apply, ← this]
      refine Finset.sum_congr rfl fun i _ => ?_
      rw [Pi.smul_apply, smul_eq_mul, ← congrFun (firstOf_padded (f i)) a]
      rfl
    · obtain ⟨mu, hle, he⟩ := hev i
      refine ⟨mu, hle, (isMode_matrix P hn mu _).2 ?_⟩
      rw [firstOf_padded]
      exact ⟨hf.ne_zero i, by rwa [← mulVec_mulVec, ← mulVec_mulVec] at he⟩

theorem isNth_of_band (P : Problem) (hn : 0 < P.nfb) {lam : ℝ} {n : ℕ} (h : BandIs P.data n lam) :
    IsNth ((muOp P).mat * (curlOp P).mat * (muOp P).mat) (muOp P).mat n lam :=
  ⟨(modes_pencil2 P hn _ _).1 h.1, fun nu hnu hc => h.2 nu hnu ((modes_pencil2 P hn _ _).2 hc)⟩

/-- The derivative of `M C M - lam M` between copies of an eigenvector. -/
theorem form_derivative {m : ℕ} {M C M' C' : Matrix (Fin m) (Fin m) ℂ} (hM : M.PosDef) (hC : C.IsHermitian) {lam : ℝ} {x : Fin m → ℂ}
    (hx : (M * C * M).mulVec x = (lam : ℂ) • M.mulVec x) :
    form ((M' * C + M * C') * M + M * C * M') x - lam * form M' x = form C' (M.mulVec x) + lam * form M' x := by
  have uM := (Matrix.isUnit_iff_isUnit_det _).1 hM.isUnit
  have hMh : Mᴴ = M := hM.isHermitian
  have hCM : C.mulVec (M.mulVec x) = (lam : ℂ) • x := by
    have h := congrArg M⁻¹.mulVec hx
    rwa [Matrix.mulVec_smul, mulVec_mulVec, mulVec_mulVec, Matrix.nonsing_inv_mul _ uM, one_mulVec, Matrix.mul_assoc M, ← Matrix.mul_assoc M⁻¹,
      Matrix.nonsing_inv_mul _ uM, Matrix.one_mul, ← mulVec_mulVec] at h
  have e1 : form (M' * C * M) x = lam * form M' x := by
    unfold form
    rw [← mulVec_mulVec, ← mulVec_mulVec, hCM, Matrix.mulVec_smul, dotProduct_smul, smul_eq_mul, Complex.re_ofReal_mul]
  have e2 : form (M * C' * M) x = form C' (M.mulVec x) := by
    rw [← form_conj, hMh]
  have e3 : form (M * C * M') x = lam * form M' x := by
    unfold form
    have h1 : star x ᵥ* M ᵥ* C = star ((lam : ℂ) • x) := by
      rw [← hCM, star_mulVec, star_mulVec, hMh, hC]
    rw [← mulVec_mulVec, ← mulVec_mulVec, dotProduct_mulVec, dotProduct_mulVec, h1, star_smul, smul_dotProduct, smul_eq_mul]
    simp
  rw [Matrix.add_mul, form_add, form_add, e1, e2, e3]
  ring

end Mpb.Perturb

import Verif.Parity.TwoDLemmas
import Verif.Parity.Props
import Verif.Perturb.Props

/-!
# C113: the TE and TM bands together are all the bands of a two-dimensional structure
-/

namespace Mpb.Parity
open Mpb.Maxwell Mpb.Maxwell.Spec Mpb.Invariance Mpb.Invariance.Spec Mpb.Perturb Spec
open Matrix

theorem class_iff (P : Problem) (hn : 0 < P.nfb) {C : (ℕ → ℂ) → Prop} {q : ℕ} (hC : ∀ X, C X ↔ keep _ q (firstOf (P.data.N * 2) X) = firstOf _ X)
    (lam : ℝ) (n : ℕ) : ClassModesUpTo P.data C lam n ↔ ∃ f : Fin n → Fin (P.data.N * 2) → ℂ, LinearIndependent ℂ f ∧
      ∀ i, keep _ q (f i) = f i ∧ ∃ mu ≤ lam, EvEq P mu (f i) := by
  constructor
  · rintro ⟨X, hli, hX⟩
    refine ⟨fun i => firstOf _ (X i), ?_, fun i => ⟨(hC _).1 (hX i).1, ?_⟩⟩
    · rw [Fintype.linearIndependent_iff]
      intro c hc i
      refine hli c (fun a ha => ?_) i
      have h2 := congrFun hc ⟨a, ha⟩
      rw [Finset.sum_apply] at h2
      rw [← h2.trans (Pi.zero_apply _)]
      rfl
    · obtain ⟨mu, hle, hm⟩ := (hX i).2
      exact ⟨mu, hle, ((isMode_matrix P hn mu _).1 hm).2⟩
  · rintro ⟨f, hf, hev⟩
    refine ⟨fun i => padded (f i), fun c hc i => ?_, fun i => ⟨(hC _).2 (by rw [firstOf_padded]; exact (hev i).1), ?_⟩⟩
    · refine Fintype.linearIndependent_iff.1 hf c ?_ i
      funext a
      have := hc a a.2
      rw [Finset.sum_apply, Pi.zero_apply, ← this]
      refine Finset.sum_congr rfl fun i _ => ?_
      rw [Pi.smul_apply, smul_eq_mul, ← congrFun (firstOf_padded (f i)) a]
      rfl
    · obtain ⟨mu, hle, he⟩ := (hev i).2
      refine ⟨mu, hle, (isMode_matrix P hn mu _).2 ?_⟩
      rw [firstOf_padded]
      exact ⟨hf.ne_zero i, he⟩

theorem modes_iff (P : Problem) (hn : 0 < P.nfb) (lam : ℝ) (n : ℕ) : ModesUpTo P.data lam n ↔
    ∃ f : Fin n → Fin (P.data.N * 2) → ℂ, LinearIndependent ℂ f ∧ ∀ i, f i ∈ {x | ∃ mu ≤ lam, EvEq P mu x} := by
  rw [modes_pencil2 P hn]
  simp only [Set.mem_setOf_eq, EvEq, ← mulVec_mulVec]

/-- **C113**: in two dimensions every mode splits into its TE and TM parts, each of which is zero or a mode of the same frequency. -/
theorem C113_split (P : Problem) (hn : 0 < P.nfb) (h : TwoD P) {lam : ℝ} {X : ℕ → ℂ} (hX : IsMode P.data lam X) :
    ∃ E M : ℕ → ℂ, IsTE P E ∧ IsTM P M ∧ (∀ a < P.data.N * 2, X a = E a + M a) ∧
      ((∀ a < P.data.N * 2, E a = 0) ∨ IsMode P.data lam E) ∧ ((∀ a < P.data.N * 2, M a = 0) ∨ IsMode P.data lam M) := by
  have hx := (isMode_matrix P hn lam X).1 hX
  set x := firstOf (P.data.N * 2) X with ex
  have key : ∀ q, (∀ a < P.data.N * 2, padded (keep _ q x) a = 0) ∨ IsMode P.data lam (padded (keep _ q x)) := by
    intro q
    by_cases h0 : keep _ q x = 0
    · left
      intro a ha
      rw [h0]
      simp [padded]
    · right
      rw [isMode_matrix P hn, firstOf_padded]
      exact ⟨h0, evEq_keep h hx.2 q⟩
  refine ⟨padded (keep _ 0 x), padded (keep _ 1 x), ?_, ?_, fun a ha => ?_, key 0, key 1⟩
  · rw [TE_keep h, firstOf_padded, keep_keep]
  · rw [TM_keep h, firstOf_padded, keep_keep]
  · have := congrFun (sub_keep x) ⟨a, ha⟩
    rw [Pi.sub_apply, sub_eq_iff_eq_add] at this
    simp only [padded, ha, dif_pos]
    rw [add_comm, ← this]
    rfl

/-- **C113**: the number of modes up to a frequency is the number of TE modes plus the number of TM modes. -/
theorem C113_union (P : Problem) (hn : 0 < P.nfb) (h : TwoD P) (lam : ℝ) (n : ℕ) : ModesUpTo P.data lam n ↔
    ∃ a b, n = a + b ∧ ClassModesUpTo P.data (IsTE P) lam a ∧ ClassModesUpTo P.data (IsTM P) lam b := by
  rw [modes_iff P hn, count_split _ (keep _ 0) keep_keep (fun x hx _ => ?_) (fun x hx _ => ?_)]
  · refine exists_congr fun a => exists_congr fun b => and_congr_right fun _ => and_congr ?_ ?_
    · rw [class_iff P hn (TE_keep h)]
      refine exists_congr fun f => and_congr_right fun _ => forall_congr' fun i => ?_
      exact and_comm
    · rw [class_iff P hn (TM_keep h)]
      refine exists_congr fun f => and_congr_right fun _ => forall_congr' fun i => ?_
      rw [← sub_keep, sub_eq_self]
      exact and_comm
  · obtain ⟨mu, hle, he⟩ := hx
    exact ⟨mu, hle, evEq_keep h he 0⟩
  · obtain ⟨mu, hle, he⟩ := hx
    rw [sub_keep]
    exact ⟨mu, hle, evEq_keep h he 1⟩

theorem band_one (X : ℕ → ℂ) (G : ℕ) : band 1 X 0 G = (X (G * 2), X (G * 2 + 1)) := by
  simp [band]

/-- **C113**: the constraint of `run-te` keeps a field exactly if it is TE, that of `run-tm` exactly if it is TM. -/
theorem C113_constraint (P : Problem) (h : TwoD P) (X : ℕ → ℂ) :
    ((∀ a < P.data.N * 2, parityConstraint ⟨P.nx, P.ny, P.nz⟩ evenZ 1 X a = X a) ↔ IsTE P X) ∧
    ((∀ a < P.data.N * 2, parityConstraint ⟨P.nx, P.ny, P.nz⟩ oddZ 1 X a = X a) ↔ IsTM P X) := by
  have hpairs : ∀ Y : ℕ → ℂ, (∀ a < P.data.N * 2, Y a = X a) ↔ ∀ G < P.data.N, band 1 Y 0 G = band 1 X 0 G := by
    intro Y
    constructor
    · intro hY G hG
      rw [band_one, band_one, hY _ (by omega), hY _ (by omega)]
    · intro hY a ha
      have := hY (a / 2) (by omega)
      rw [band_one, band_one, Prod.mk.injEq] at this
      rcases Nat.mod_two_eq_zero_or_one a with h0 | h0
      · have e : a / 2 * 2 = a := by omega
        rw [e] at this; exact this.1
      · have e : a / 2 * 2 + 1 = a := by omega
        rw [e] at this; exact this.2
  obtain ⟨e1, -⟩ := C14_z ⟨P.nx, P.ny, P.nz⟩ evenZ 1 X
  obtain ⟨-, o1, -⟩ := C14_z ⟨P.nx, P.ny, P.nz⟩ oddZ 1 X
  have hpe : parityConstraint ⟨P.nx, P.ny, P.nz⟩ evenZ 1 X = zparityConstraint ⟨P.nx, P.ny, P.nz⟩ evenZ 1 X := by
    unfold parityConstraint; rw [if_neg (by decide), if_pos (by decide)]
  have hpo : parityConstraint ⟨P.nx, P.ny, P.nz⟩ oddZ 1 X = zparityConstraint ⟨P.nx, P.ny, P.nz⟩ oddZ 1 X := by
    unfold parityConstraint; rw [if_neg (by decide), if_pos (by decide)]
  rw [hpairs, hpairs, amplitude_TE h, amplitude_TM h, hpe, hpo]
  have hfl : ∀ G, flipZ P.nz G = G := fun G => by rw [h.nz, flipZ]; omega
  refine ⟨forall_congr' fun G => forall_congr' fun hG => ?_, forall_congr' fun G => forall_congr' fun hG => ?_⟩
  · rw [e1 (by decide) 0 (by omega) G hG]
    simp only [part, scale, Spec.add, mirrorZ, hfl, band_one, Prod.mk.injEq, Prod.fst_add, Prod.snd_add]
    constructor
    · rintro ⟨-, h2⟩
      rw [← h2]; ring
    · intro h2
      rw [h2]; constructor <;> ring
  · rw [o1 (by decide) (by decide) 0 (by omega) G hG]
    simp only [part, scale, Spec.add, mirrorZ, hfl, band_one, Prod.mk.injEq, Prod.fst_add, Prod.snd_add]
    constructor
    · rintro ⟨h2, -⟩
      rw [← h2]; ring
    · intro h2
      rw [h2]; constructor <;> ring

theorem mulVec_block {m q : ℕ} {A A' : Matrix (Fin m) (Fin m) ℂ} (hA : ∀ i j : Fin m, i.1 % 2 ≠ j.1 % 2 → A i j = 0)
    (hA' : ∀ i j : Fin m, i.1 % 2 ≠ j.1 % 2 → A' i j = 0) (he : ∀ i j : Fin m, i.1 % 2 = q → j.1 % 2 = q → A i j = A' i j) {x : Fin m → ℂ}
    (hx : keep m q x = x) : A.mulVec x = A'.mulVec x := by
  funext i
  simp only [Matrix.mulVec, dotProduct]
  refine Finset.sum_congr rfl fun j _ => ?_
  by_cases hj : j.1 % 2 = q
  · by_cases hi : i.1 % 2 = q
    · rw [he i j hi hj]
    · rw [hA i j (by omega), hA' i j (by omega)]
  · rw [← congrFun hx j, keep_apply, if_neg hj, mul_zero, mul_zero]

theorem class_congr (P : Problem) (hn : 0 < P.nfb) (e : ℕ → HMat) (m : Option (ℕ → HMat)) (h : TwoD P)
    (h' : TwoD (withTensors P e m)) {C C' : (ℕ → ℂ) → Prop} {q : ℕ} (hC : ∀ X, C X ↔ keep _ q (firstOf (P.data.N * 2) X) = firstOf _ X)
    (hC' : ∀ X, C' X ↔ keep _ q (firstOf (P.data.N * 2) X) = firstOf _ X)
    (hcurl : ∀ i j : Fin (P.data.N * 2), i.1 % 2 = q → j.1 % 2 = q → (curlOp P).mat i j = (curlOp (withTensors P e m)).mat i j)
    (hmu : ∀ i j : Fin (P.data.N * 2), i.1 % 2 = q → j.1 % 2 = q → (muOp P).mat i j = (muOp (withTensors P e m)).mat i j)
    (lam : ℝ) (n : ℕ) : ClassModesUpTo P.data C lam n ↔ ClassModesUpTo (withTensors P e m).data C' lam n := by
  rw [class_iff P hn hC, class_iff (withTensors P e m) hn hC']
  refine exists_congr fun f => and_congr_right fun _ => forall_congr' fun i => and_congr_right fun hf => exists_congr fun mu => and_congr_right fun _ => ?_
  unfold EvEq
  have k1 := mulVec_block (mu_mixed h) (mu_mixed (P := withTensors P e m) h') hmu hf
  have f1 : keep _ q ((muOp P).mat.mulVec (f i)) = (muOp P).mat.mulVec (f i) := by rw [← keep_mulVec (mu_mixed h), hf]
  have k2 := mulVec_block (curl_mixed h) (curl_mixed (P := withTensors P e m) h') hcurl f1
  have f2 : keep _ q ((curlOp P).mat.mulVec ((muOp P).mat.mulVec (f i))) = (curlOp P).mat.mulVec ((muOp P).mat.mulVec (f i)) := by
    rw [← keep_mulVec (curl_mixed h), f1]
  have k3 := mulVec_block (mu_mixed h) (mu_mixed (P := withTensors P e m) h') hmu f2
  rw [k3, k2, k1]
  rfl

/-- **C113**: the TE bands see only the in-plane entries of the inverse permittivity and the `zz` entry of the inverse permeability. -/
theorem C113_te_blind (P : Problem) (hn : 0 < P.nfb) (e : ℕ → HMat) (m : Option (ℕ → HMat)) (h : TwoD P)
    (h' : TwoD (withTensors P e m))
    (he : ∀ r < P.nx * P.ny, (P.epsInv r).m00 = (e r).m00 ∧ (P.epsInv r).m11 = (e r).m11 ∧ (P.epsInv r).m01 = (e r).m01)
    (hm : ∀ r < P.nx * P.ny, (invMu P r).m22 = (invMu (withTensors P e m) r).m22) (lam : ℝ) (n : ℕ) :
    ClassModesUpTo P.data (IsTE P) lam n ↔
      ClassModesUpTo (withTensors P e m).data (IsTE (withTensors P e m)) lam n := by
  rw [← n_eq h] at he hm
  refine class_congr P hn e m h h' (TE_keep h) (TE_keep (P := withTensors P e m) h') (fun i j hi hj => ?_) (fun i j hi hj => ?_) lam n
  · obtain ⟨K, hK⟩ := exists_waves h
    have hB : ∀ G < P.data.N, IsBasis (K G) (P.data.kpg G) := fun G hG => by rw [(hK G hG).2]; exact kData_isBasis _
    refine (entry_curl P hB i j).trans (Eq.trans ?_ (entry_curl (withTensors P e m) (K := K) hB i j).symm)
    exact gridForm_inPlane he (curl_inPlane hK fun G _ => unit_even hi G) (curl_inPlane hK fun G _ => unit_even hj G)
  · refine (entry_mu P i j).trans (Eq.trans ?_ (entry_mu (withTensors P e m) i j).symm)
    exact gridForm_along hm (plain_along h fun G _ => unit_even hi G) (plain_along h fun G _ => unit_even hj G)

/-- **C113**: the TM bands see only the `zz` entry of the inverse permittivity and the in-plane entries of the inverse permeability. -/
theorem C113_tm_blind (P : Problem) (hn : 0 < P.nfb) (e : ℕ → HMat) (m : Option (ℕ → HMat)) (h : TwoD P)
    (h' : TwoD (withTensors P e m)) (he : ∀ r < P.nx * P.ny, (P.epsInv r).m22 = (e r).m22)
    (hm : ∀ r < P.nx * P.ny, (invMu P r).m00 = (invMu (withTensors P e m) r).m00 ∧
      (invMu P r).m11 = (invMu (withTensors P e m) r).m11 ∧ (invMu P r).m01 = (invMu (withTensors P e m) r).m01)
    (lam : ℝ) (n : ℕ) : ClassModesUpTo P.data (IsTM P) lam n ↔
      ClassModesUpTo (withTensors P e m).data (IsTM (withTensors P e m)) lam n := by
  rw [← n_eq h] at he hm
  refine class_congr P hn e m h h' (TM_keep h) (TM_keep (P := withTensors P e m) h') (fun i j hi hj => ?_) (fun i j hi hj => ?_) lam n
  · obtain ⟨K, hK⟩ := exists_waves h
    have hB : ∀ G < P.data.N, IsBasis (K G) (P.data.kpg G) := fun G hG => by rw [(hK G hG).2]; exact kData_isBasis _
    refine (entry_curl P hB i j).trans (Eq.trans ?_ (entry_curl (withTensors P e m) (K := K) hB i j).symm)
    exact gridForm_along he (curl_along hK fun G _ => unit_odd hi G) (curl_along hK fun G _ => unit_odd hj G)
  · refine (entry_mu P i j).trans (Eq.trans ?_ (entry_mu (withTensors P e m) i j).symm)
    exact gridForm_inPlane hm (plain_inPlane h fun G _ => unit_odd hi G) (plain_inPlane h fun G _ => unit_odd hj G)

/-- Non-vacuity: the uniaxial medium `exP` of one grid point, wavevector along `x`, is two-dimensional, has one TE mode with `1/4` and one TM mode with
`1/2` (the TM one not up to `1/4`); with another permittivity along `z` it is still two-dimensional. -/
example : 0 < exP.nfb ∧ TwoD exP ∧ ClassModesUpTo exP.data (IsTE exP) (1 / 4) 1 ∧ ¬ ClassModesUpTo exP.data (IsTM exP) (1 / 4) 1 ∧
    ClassModesUpTo exP.data (IsTM exP) (1 / 2) 1 ∧ ModesUpTo exP.data (1 / 2) 2 ∧ TwoD (withTensors exP (fun _ => ⟨1, 1 / 4, 1 / 3, 0, 0, 0⟩) none) := by
  have h2 : TwoD exP := by
    constructor <;> simp [exP, Flat, invMu, M3.one]
  have hN : exP.data.N = 1 := rfl
  have one : ∀ (C : (ℕ → ℂ) → Prop) (b : ℕ) (lam : ℝ), b < 2 → C (fun a => if a = b then 1 else 0) → IsMode exP.data lam (fun a => if a = b then 1 else 0) →
      ClassModesUpTo exP.data C lam 1 := by
    intro C b lam hb hC hm
    refine ⟨fun _ a => if a = b then 1 else 0, fun c hc i => ?_, fun _ => ⟨hC, lam, le_rfl, hm⟩⟩
    have := hc b (by rw [hN]; omega)
    rw [Subsingleton.elim i 0]
    simpa using this
  have hte : ClassModesUpTo exP.data (IsTE exP) (1 / 4) 1 := by
    refine one _ 0 _ (by norm_num) ((amplitude_TE h2 _).2 fun G _ => by simp) ?_
    exact (exP_mode 1 (1 / 4) (1 / 2) exP rfl _ _).2 (by norm_num)
  have hte2 : ClassModesUpTo exP.data (IsTE exP) (1 / 2) 1 := by
    obtain ⟨X, hX, hC⟩ := hte
    refine ⟨X, hX, fun i => ⟨(hC i).1, ?_⟩⟩
    obtain ⟨mu, hmu, hm⟩ := (hC i).2
    exact ⟨mu, hmu.trans (by norm_num), hm⟩
  have htm : ClassModesUpTo exP.data (IsTM exP) (1 / 2) 1 := by
    refine one _ 1 _ (by norm_num) ((amplitude_TM h2 _).2 fun G _ => by rw [if_neg (by omega)]) ?_
    exact (exP_mode 1 (1 / 4) (1 / 2) exP rfl _ _).2 (by norm_num)
  refine ⟨Nat.one_pos, h2, hte, ?_, htm, (C113_union exP Nat.one_pos h2 _ _).2 ⟨1, 1, rfl, hte2, htm⟩, ?_⟩
  · rintro ⟨X, -, hX⟩
    obtain ⟨h1, mu, hmu, h3⟩ := hX 0
    obtain ⟨k1, -, k3⟩ := (exP_mode 1 (1 / 4) (1 / 2) exP rfl _ _).1 h3
    have h0 : X 0 0 = 0 := (amplitude_TM h2 _).1 h1 0 (by rw [hN]; norm_num)
    have hx1 : X 0 1 ≠ 0 := by simpa [h0] using k1
    have e := mul_right_cancel₀ hx1 k3
    have e2 : (1 / 2 : ℝ) = mu := by exact_mod_cast e
    linarith
  · constructor <;> simp [exP, Flat, invMu, M3.one, withTensors]

end Mpb.Parity

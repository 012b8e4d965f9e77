import Verif.RealBuild.FieldProps
import Verif.RealBuild.PrecondModel
import Verif.Target.Precond

/-!
# Property C111 for the preconditioners of the build for structures with inversion symmetry

The four preconditioners of `mpbi` applied to real amplitudes give the numbers that those of `mpb` give.
-/

namespace Mpb.RealBuild
open Mpb.Maxwell Mpb.Maxwell.Spec Mpb.Invariance Mpb.Invariance.Spec Mpb.Mat Mpb.Target Mpb.Target.Spec Spec

theorem crossinvT2cR_cast (k : KData) (a b : ℝ) : toC (crossinvT2cR k a b) = crossinvT2c k a b := by
  ext <;> apply Complex.ext <;> simp [toC, V3.map, crossinvT2cR, crossinvT2c]

theorem crossinvC2tR_cast (k : KData) (v : V3 ℝ) (s : ℝ) : castP (crossinvC2tR k v s) = crossinvC2t k (toC v) s := by
  refine Prod.ext ?_ ?_ <;> apply Complex.ext <;> simp [toC, V3.map, castP, crossinvC2tR, crossinvC2t]

theorem timesEpsR_eq (n num : ℕ) (M : ℕ → HMat) (F : ℕ → ℝ) : timesEpsR n num M F = eFromDR n num (fun r => epsOf (M r)) F := by
  unfold timesEpsR eFromDR
  congr 1
  funext mem t
  have hx : ∀ (e : ℝ) (v : V3 ℂ), (HMat.mulVec ⟨e, e, e, 0, 0, 0⟩ v) = ⟨⟨v.x.re * e, v.x.im * e⟩, ⟨v.y.re * e, v.y.im * e⟩, ⟨v.z.re * e, v.z.im * e⟩⟩ := by
    intro e v
    ext <;> apply Complex.ext <;> simp [HMat.mulVec] <;> ring
  simp only [epsOf, hx]
  rfl

theorem half_map {n : V3 ℕ} {f h : ℕ → HMat} (H : HalfStored n f h) (g : HMat → HMat) : HalfStored n (fun r => g (f r)) (fun r => g (h r)) := by
  unfold HalfStored at H ⊢
  split_ifs at H ⊢ with h1 h2
  · exact fun x hx hx' => congrArg g (H x hx hx')
  · exact fun x hx y hy hy' => congrArg g (H x hx y hy hy')
  · exact fun x hx y hy z hz hz' => congrArg g (H x hx y hy z hz hz')

theorem epsOf_conj {e e' : HMat} (h : Conjugate e e') : Conjugate (epsOf e) (epsOf e') := by
  have h0 := congrFun (congrFun h 0) 0
  have h1 := congrFun (congrFun h 1) 1
  have h2 := congrFun (congrFun h 2) 2
  simp only [Tensor.Spec.toMatrix, Matrix.map_apply, Matrix.of_apply, Matrix.cons_val', Matrix.cons_val_zero, Matrix.cons_val_one,
    Matrix.cons_val, Complex.conj_ofReal, Complex.ofReal_inj] at h0 h1 h2
  unfold Conjugate epsOf
  rw [h0, h1, h2]
  ext i j
  fin_cases i <;> fin_cases j <;> simp [Tensor.Spec.toMatrix, map_ofNat]

section
variable {w : Fftw} {d : RData} {P : Problem}

theorem invStepR_apply (hw : IsC2R ⟨P.nx, P.ny, P.nz⟩ w) (hd : Represents d P) (hs : Symmetric P) (p : ℕ) (buf X : ℕ → ℝ) (ch : ℕ × ℕ)
    (hch : ch.1 + ch.2 ≤ p) :
    (∀ G < d.N, ∀ b < ch.2, cband p (invStepR w d p buf X ch) (ch.1 + b) G = bandInv P.data (cband p X (ch.1 + b)) G) ∧
    (∀ a, (∀ G < d.N, ∀ b < ch.2, ∀ c < 2, a ≠ (G * 2 + c) * p + (ch.1 + b)) → invStepR w d p buf X ch a = X a) := by
  unfold invStepR
  dsimp only
  rw [timesEpsR_eq]
  have := chainR_apply crossinvT2cR_cast crossinvC2tR_cast hw hd (half_map hd.eps epsOf)
    (fun x hx y hy z hz => epsOf_conj (hs.1 x hx y hy z hz)) (-1 / (d.N : ℝ)) X buf X hch
  refine ⟨fun G hG b hb => (this.1 G hG b hb).trans ?_, this.2⟩
  rw [N_eq hd]
  rfl

theorem invBandsR_apply (hw : IsC2R ⟨P.nx, P.ny, P.nz⟩ w) (hd : Represents d P) (hs : Symmetric P) (hn : 0 < d.nfb) (p : ℕ)
    (bufs : ℕ → ℕ → ℝ) (X : ℕ → ℝ) :
    ∃ R, invBandsR w d p bufs X = some R ∧ ∀ b < p, ∀ G < d.N, cband p R b G = bandInv P.data (cband p X b) G := by
  have hN := N_eq hd
  unfold invBandsR
  rw [if_neg (by omega)]
  have hre : ∀ (Y Z : ℕ → ℝ) (b c G : ℕ), cband p Y b G = bandInv P.data (cband p Z c) G →
      bandR p Y b G = ((bandInv P.data (fun G => castP (bandR p Z c G)) G).1.re, (bandInv P.data (fun G => castP (bandR p Z c G)) G).2.re) := by
    intro Y Z b c G e
    have e' : castP (bandR p Y b G) = bandInv P.data (fun G => castP (bandR p Z c G)) G := e
    rw [← e']
    simp [castP]
  obtain ⟨h1, -⟩ := chunks_inplace_of (N := d.N) (p := p) hn (fun X ch => invStepR w d p (bufs ch.1) X ch)
    (fun x G => ((bandInv P.data (fun G => castP (x G)) G).1.re, (bandInv P.data (fun G => castP (x G)) G).2.re))
    (fun x y h G _ => by
      rw [bandInv_congr P.data (fun G' hG' => by rw [h G' (by rw [hN]; exact hG')]) G])
    (fun X ch hch => ⟨fun G hG b hb => hre _ _ _ _ _ ((invStepR_apply hw hd hs p (bufs ch.1) X ch hch).1 G hG b hb),
      (invStepR_apply hw hd hs p (bufs ch.1) X ch hch).2⟩) 0 X (by omega)
  refine ⟨_, rfl, fun b hb G hG => ?_⟩
  -- the values are real: one pass on this band alone
  have hreal := (invStepR_apply hw hd hs p (fun _ => 0) X (b, 1) (by simp only; omega)).1 G hG 0 (by simp)
  simp only [Nat.add_zero] at hreal
  have h2 := h1 b (by omega) hb G hG
  have h3 := hre _ _ _ _ _ hreal
  rw [← hreal]
  exact congrArg castP (h2.trans h3.symm)

theorem mixR_band {N p : ℕ} (S Xin Xout : ℕ → ℝ) {b : ℕ} (hb : b < p) {G : ℕ} (hG : G < N) :
    cband p (mixR (N * 2) p S Xin Xout) b G = mixed p (asComplex S) (asComplex Xin) b G := by
  have hp : 0 < p := by omega
  have val : ∀ c < 2, ((mixR (N * 2) p S Xin Xout ((G * 2 + c) * p + b) : ℝ) : ℂ) =
      ∑ j ∈ Finset.range p, (starRingEnd ℂ) (asComplex S (b * p + j)) * asComplex Xin ((G * 2 + c) * p + j) := by
    intro c hc
    have e1 : ((G * 2 + c) * p + b) / p = G * 2 + c := by
      rw [Nat.add_comm, Nat.add_mul_div_right _ _ hp, Nat.div_eq_of_lt hb, Nat.zero_add]
    have e2 : ((G * 2 + c) * p + b) % p = b := by
      rw [Nat.add_comm, Nat.add_mul_mod_self_right, Nat.mod_eq_of_lt hb]
    unfold mixR
    rw [if_pos (rowMajor_lt (rowMajor_lt hG hc) hb), e1, e2, Complex.ofReal_sum]
    refine Finset.sum_congr rfl fun j _ => ?_
    unfold asComplex
    rw [Complex.conj_ofReal]
    push_cast
    ring
  exact Prod.ext (val 0 (by omega)) (val 1 (by omega))

theorem simpleR_band (N p : ℕ) (kpGn2 : ℕ → ℝ) (e : ℝ) (X : ℕ → ℝ) :
    (∀ b < p, ∀ G < N, cband p (simplePreconditionR N 2 p kpGn2 e X) b G = bandDiag (fun G => 1 / fixDenom (kpGn2 G * e)) (cband p X b) G) := by
  obtain ⟨h1, -⟩ := foldl_update_spec (fun t : ℕ × ℕ × ℕ => (t.1 * 2 + t.2.1) * p + t.2.2)
    (fun t (v : ℝ) => 1 / fixDenom (kpGn2 t.1 * e) * v) (loop3 N 2 p) X (by rw [loop3_map_addr]; exact List.nodup_range)
  intro b hb G hG
  have val : ∀ c < 2, ((simplePreconditionR N 2 p kpGn2 e X ((G * 2 + c) * p + b) : ℝ) : ℂ) =
      ((1 / fixDenom (kpGn2 G * e) : ℝ) : ℂ) * (X ((G * 2 + c) * p + b) : ℂ) := by
    intro c hc
    rw [← Complex.ofReal_mul]
    exact congrArg _ (h1 (G, c, b) (mem_loop3.2 ⟨hG, hc, hb⟩))
  exact Prod.ext (val 0 (by omega)) (val 1 (by omega))

theorem squareR_band (N p : ℕ) (kpGn2 : ℕ → ℝ) (e : ℝ) (X : ℕ → ℝ) :
    (∀ b < p, ∀ G < N, cband p (squarePreconditionR N 2 p kpGn2 e X) b G =
      bandDiag (fun G => (1 / fixDenom (kpGn2 G * e)) ^ 2) (cband p X b) G) := by
  obtain ⟨h1, -⟩ := foldl_update_spec (fun t : ℕ × ℕ × ℕ => (t.1 * 2 + t.2.1) * p + t.2.2)
    (fun t (v : ℝ) => 1 / fixDenom (kpGn2 t.1 * e * (kpGn2 t.1 * e)) * v) (loop3 N 2 p) X (by rw [loop3_map_addr]; exact List.nodup_range)
  intro b hb G hG
  have hf : 1 / fixDenom (kpGn2 G * e * (kpGn2 G * e)) = (1 / fixDenom (kpGn2 G * e)) ^ 2 := by
    unfold fixDenom
    by_cases h0 : kpGn2 G * e = 0
    · rw [if_pos h0, if_pos (by rw [h0]; ring)]; norm_num
    · rw [if_neg h0, if_neg (mul_ne_zero h0 h0)]; field_simp
  have val : ∀ c < 2, ((squarePreconditionR N 2 p kpGn2 e X ((G * 2 + c) * p + b) : ℝ) : ℂ) =
      (((1 / fixDenom (kpGn2 G * e)) ^ 2 : ℝ) : ℂ) * (X ((G * 2 + c) * p + b) : ℂ) := by
    intro c hc
    rw [← Complex.ofReal_mul, ← hf]
    exact congrArg _ (h1 (G, c, b) (mem_loop3.2 ⟨hG, hc, hb⟩))
  exact Prod.ext (val 0 (by omega)) (val 1 (by omega))

/-! ### The properties -/

/-- C111 (preconditioners).  Let the arrays of the general build hold the same, real, amplitudes `Xin` and matrix `YtY = S` as those of the
inversion-symmetric build.  Then each of the four preconditioners returns in both and leaves the same numbers in the output array, for every
number of bands and batch size, and whatever the buffers and the output array contained. -/
theorem C111_preconditioners (hw : IsC2R ⟨P.nx, P.ny, P.nz⟩ w) (hd : Represents d P) (hs : Symmetric P) (hn : 0 < d.nfb) {p : ℕ} (hp : 0 < p)
    (kpGn2 : ℕ → ℝ) (epsInvMean : ℝ) (bufsR bufsR' : ℕ → ℕ → ℝ) (bufs bufs' : ℕ → (ℕ → ℂ) × (ℕ → ℂ)) (SR Xin Xout : ℕ → ℝ)
    {xin xout : ℕ} (hne : xin ≠ xout) (S : SQ) (hS : S.p = p) (hSo : S.data.off = 0) (hSx : S.data.arr ≠ xout) (h : Heap)
    (h1 : h xin = asComplex Xin) (h2 : h S.data.arr = asComplex SR) :
    (∃ h', preconditioner P.data kpGn2 epsInvMean p xin xout S h = some h' ∧
      ∀ a < P.nx * P.ny * P.nz * 2 * p, h' xout a = preconditionerR d kpGn2 epsInvMean p SR Xin Xout a) ∧
    (∃ h', targetPreconditioner P.data kpGn2 epsInvMean p xin xout S h = some h' ∧
      ∀ a < P.nx * P.ny * P.nz * 2 * p, h' xout a = targetPreconditionerR d kpGn2 epsInvMean p SR Xin Xout a) ∧
    (∃ h' R, preconditioner2 P.data p bufs xin xout S h = some h' ∧ preconditioner2R w d p bufsR SR Xin Xout = some R ∧
      ∀ a < P.nx * P.ny * P.nz * 2 * p, h' xout a = R a) ∧
    ∃ h' R, targetPreconditioner2 P.data p bufs bufs' xin xout S h = some h' ∧ targetPreconditioner2R w d p bufsR bufsR' SR Xin Xout = some R ∧
      ∀ a < P.nx * P.ny * P.nz * 2 * p, h' xout a = R a := by
  have hN := N_eq hd
  have hnP : 0 < P.data.nfb := by show 0 < P.nfb; rw [← hd.nfb]; exact hn
  obtain ⟨g, e1, a1, -, -⟩ := load_apply P.data hp hne S hS hSo hSx h
  set M := mixR (d.N * 2) p SR Xin Xout with hM
  have hmix : ∀ b < p, ∀ G < P.data.N, band p (g xout) b G = cband p M b G := by
    intro b hb G hG
    rw [a1 b hb G hG, h1, h2]
    exact (mixR_band SR Xin Xout hb (by rw [hN]; exact hG)).symm
  refine ⟨?_, ?_, ?_, ?_⟩
  · refine ⟨Function.update g xout (simplePrecondition P.data.N 2 p kpGn2 epsInvMean (g xout)), by unfold preconditioner; rw [e1]; rfl, fun a ha => ?_⟩
    rw [Function.update_self]
    refine eq_of_bands (N := P.data.N) (fun b hb G hG => ?_) ha
    rw [(simple_band P.data.N p kpGn2 epsInvMean (g xout)).1 b hb G hG]
    refine Eq.trans ?_ (simpleR_band d.N p kpGn2 epsInvMean M b hb G (by rw [hN]; exact hG)).symm
    unfold bandDiag
    rw [hmix b hb G hG]
  · refine ⟨Function.update g xout (squarePrecondition P.data.N 2 p kpGn2 epsInvMean (g xout)), by unfold targetPreconditioner; rw [e1]; rfl,
      fun a ha => ?_⟩
    rw [Function.update_self]
    refine eq_of_bands (N := P.data.N) (fun b hb G hG => ?_) ha
    rw [(square_band P.data.N p kpGn2 epsInvMean (g xout)).1 b hb G hG]
    refine Eq.trans ?_ (squareR_band d.N p kpGn2 epsInvMean M b hb G (by rw [hN]; exact hG)).symm
    unfold bandDiag
    rw [hmix b hb G hG]
  all_goals
    obtain ⟨R1, e2, b1, -⟩ := invBands_apply P.data p hnP bufs (g xout)
    obtain ⟨R2, e3, b2⟩ := invBandsR_apply hw hd hs hn p bufsR M
    have hR : ∀ b < p, ∀ G < P.data.N, band p R1 b G = cband p R2 b G := by
      intro b hb G hG
      rw [b1 b hb G hG, b2 b hb G (by rw [hN]; exact hG)]
      exact bandInv_congr P.data (fun G' hG' => hmix b hb G' hG') G
  · refine ⟨Function.update g xout R1, R2, ?_, e3, fun a ha => ?_⟩
    · unfold preconditioner2 loadXout
      rw [if_pos (Ne.symm hne), e1]
      dsimp only
      rw [e2]
      rfl
    · rw [Function.update_self]
      exact eq_of_bands (N := P.data.N) hR ha
  · obtain ⟨R3, e4, c1, -⟩ := invBands_apply P.data p hnP bufs' R1
    obtain ⟨R4, e5, c2⟩ := invBandsR_apply hw hd hs hn p bufsR' R2
    refine ⟨Function.update (Function.update g xout R1) xout R3, R4, ?_, ?_, fun a ha => ?_⟩
    · unfold targetPreconditioner2 preconditioner2 loadXout
      rw [if_pos (Ne.symm hne), e1]
      dsimp only
      rw [e2]
      simp only [Option.map_some, ne_eq, not_true_eq_false, if_false, Function.update_self]
      rw [e4]
      rfl
    · unfold targetPreconditioner2R preconditioner2R
      rw [← hM, e3]
      exact e5
    · rw [Function.update_self]
      refine eq_of_bands (N := P.data.N) (fun b hb G hG => ?_) ha
      rw [c1 b hb G hG, c2 b hb G (by rw [hN]; exact hG)]
      exact bandInv_congr P.data (fun G' hG' => hR b hb G' hG') G

end

/-- Glass, three bands; arrays 0 and 1, the matrix in array 2. -/
example (bufs : ℕ → (ℕ → ℂ) × (ℕ → ℂ)) (bufsR : ℕ → ℕ → ℝ) (SR Xin Xout : ℕ → ℝ) :
    ∃ h' R, preconditioner2 exGlass.data 3 bufs 0 1 ⟨3, 3, ⟨2, 0⟩⟩ (fun k => if k = 0 then asComplex Xin else asComplex SR) = some h' ∧
      preconditioner2R (refFftw 4 3 2 fun _ a => a) exGlassR 3 bufsR SR Xin Xout = some R ∧ ∀ a < 4 * 3 * 2 * 2 * 3, h' 1 a = R a :=
  (C111_preconditioners exGlass_ok.2.2 exGlass_ok.1 exGlass_ok.2.1 (by show 0 < 1; norm_num) (p := 3) (by norm_num) (fun _ => 0) 0 bufsR bufsR
    bufs bufs SR Xin Xout (xin := 0) (xout := 1) (by norm_num) ⟨3, 3, ⟨2, 0⟩⟩ rfl rfl (by show (2 : ℕ) ≠ 1; norm_num) _ rfl rfl).2.2.1

end Mpb.RealBuild

import Verif.Target.Model
import Verif.Maxwell.OperatorProps
import Verif.Mat.Block

/-! # Lemmas on the targeted operator and the preconditioners -/

namespace Mpb.Target

open Mpb.Maxwell Mpb.Mat Mpb.Maxwell.Spec

/-! ### The band loop in place -/

theorem addr_ne {p G c b G' c' b' : ℕ} (hb : b < p) (hb' : b' < p) (h : b ≠ b') : (G * 2 + c) * p + b ≠ (G' * 2 + c') * p + b' :=
  fun e => h (rowMajor_inj hb hb' e).2

/-- Band `b` of an array of numbers of any kind. -/
def cols {α : Type} (p : ℕ) (X : ℕ → α) (b : ℕ) : ℕ → α × α := fun G => (X ((G * 2 + 0) * p + b), X ((G * 2 + 1) * p + b))

/-- The band loop, when each pass replaces its own bands by a function of their old content. -/
theorem chunks_inplace_of {α : Type} {N p nfb : ℕ} (hn : 0 < nfb) (step : (ℕ → α) → ℕ × ℕ → (ℕ → α)) (A : (ℕ → α × α) → ℕ → α × α)
    (hA : ∀ x y, (∀ G < N, x G = y G) → ∀ G < N, A x G = A y G)
    (hstep : ∀ (X : ℕ → α) (ch : ℕ × ℕ), ch.1 + ch.2 ≤ p →
      (∀ G < N, ∀ b < ch.2, cols p (step X ch) (ch.1 + b) G = A (cols p X (ch.1 + b)) G) ∧
      (∀ a, (∀ G < N, ∀ b < ch.2, ∀ c < 2, a ≠ (G * 2 + c) * p + (ch.1 + b)) → step X ch a = X a)) :
    ∀ (cur : ℕ) (X : ℕ → α), cur ≤ p →
      (∀ b, cur ≤ b → b < p → ∀ G < N, cols p ((bandChunks nfb p cur).foldl step X) b G = A (cols p X b) G) ∧
      (∀ a, (∀ G < N, ∀ b, cur ≤ b → b < p → ∀ c < 2, a ≠ (G * 2 + c) * p + b) → (bandChunks nfb p cur).foldl step X a = X a) := by
  intro cur
  induction cur using bandChunks.induct (nfb := nfb) (p := p) with
  | case1 cur h ih =>
    intro X _
    rw [bandChunks, if_pos h, List.foldl_cons]
    set ch : ℕ × ℕ := (cur, min nfb (p - cur)) with hch
    have hle : ch.1 + ch.2 ≤ p := by simp only [hch]; omega
    obtain ⟨s1, s2⟩ := hstep X ch hle
    by_cases hcp : cur + nfb ≤ p
    · obtain ⟨i1, i2⟩ := ih (step X ch) hcp
      have hc2 : ch.2 = nfb := by simp only [hch]; omega
      refine ⟨fun b hb hbp G hG => ?_, fun a ha => ?_⟩
      · by_cases hlt : b < cur + nfb
        · have e : ∀ c < 2, (bandChunks nfb p (cur + nfb)).foldl step (step X ch) ((G * 2 + c) * p + b) = step X ch ((G * 2 + c) * p + b) :=
            fun c _ => i2 _ (fun G' _ b' hb' hbp' c' _ => addr_ne hbp hbp' (by omega))
          have t := s1 G hG (b - cur) (by rw [hc2]; omega)
          have hb' : ch.1 + (b - cur) = b := by simp only [hch]; omega
          rw [hb'] at t
          rw [← t]
          exact Prod.ext (e 0 (by omega)) (e 1 (by omega))
        · rw [i1 b (by omega) hbp G hG]
          refine hA _ _ (fun G' hG' => ?_) G hG
          have e : ∀ c < 2, step X ch ((G' * 2 + c) * p + b) = X ((G' * 2 + c) * p + b) :=
            fun c _ => s2 _ (fun G'' _ b'' hb'' c'' _ => addr_ne hbp (by omega) (by rw [hc2] at hb''; simp only [hch]; omega))
          exact Prod.ext (e 0 (by omega)) (e 1 (by omega))
      · rw [i2 a (fun G hG b hb hbp c hc => ha G hG b (by omega) hbp c hc)]
        exact s2 a (fun G hG b hb c hc => ha G hG _ (by simp only [hch]; omega) (by omega) c hc)
    · have hnil : bandChunks nfb p (cur + nfb) = [] := by rw [bandChunks, if_neg (by omega)]
      have hc2 : ch.2 = p - cur := by simp only [hch]; omega
      rw [hnil, List.foldl_nil]
      refine ⟨fun b hb hbp G hG => ?_, fun a ha => s2 a (fun G hG b hb c hc => ha G hG _ (by simp only [hch]; omega) (by omega) c hc)⟩
      have t := s1 G hG (b - cur) (by rw [hc2]; omega)
      have hb' : ch.1 + (b - cur) = b := by simp only [hch]; omega
      rwa [hb'] at t
  | case2 cur h =>
    intro X hcp
    rw [bandChunks, if_neg h, List.foldl_nil]
    exact ⟨fun b hb hbp => by omega, fun a _ => rfl⟩

theorem chunks_inplace {N p nfb : ℕ} (hn : 0 < nfb) (step : (ℕ → ℂ) → ℕ × ℕ → (ℕ → ℂ)) (A : (ℕ → ℂ × ℂ) → ℕ → ℂ × ℂ)
    (hA : ∀ x y, (∀ G < N, x G = y G) → ∀ G < N, A x G = A y G)
    (hstep : ∀ (X : ℕ → ℂ) (ch : ℕ × ℕ), ch.1 + ch.2 ≤ p →
      (∀ G < N, ∀ b < ch.2, band p (step X ch) (ch.1 + b) G = A (band p X (ch.1 + b)) G) ∧
      (∀ a, (∀ G < N, ∀ b < ch.2, ∀ c < 2, a ≠ (G * 2 + c) * p + (ch.1 + b)) → step X ch a = X a)) :
    ∀ (cur : ℕ) (X : ℕ → ℂ), cur ≤ p →
      (∀ b, cur ≤ b → b < p → ∀ G < N, band p ((bandChunks nfb p cur).foldl step X) b G = A (band p X b) G) ∧
      (∀ a, (∀ G < N, ∀ b, cur ≤ b → b < p → ∀ c < 2, a ≠ (G * 2 + c) * p + b) → (bandChunks nfb p cur).foldl step X a = X a) :=
  chunks_inplace_of hn step A hA hstep

/-! ### The fancy preconditioner, one pass -/

/-- The tensor by which `timesEps` multiplies. -/
noncomputable def epsOf (m : HMat) : HMat := ⟨3 / (m.m00 + m.m11 + m.m22), 3 / (m.m00 + m.m11 + m.m22), 3 / (m.m00 + m.m11 + m.m22), 0, 0, 0⟩

theorem timesEps_eq (n num : ℕ) (M : ℕ → HMat) (F : ℕ → ℂ) : timesEps n num M F = eFromD n num (fun r => epsOf (M r)) F := by
  unfold timesEps eFromD
  congr 1
  funext mem t
  dsimp only
  congr 1
  ext <;> apply Complex.ext <;> simp [HMat.mulVec, epsOf] <;> ring

/-- The single-band fancy preconditioner. -/
noncomputable def bandInv (d : OpData) (x : ℕ → ℂ × ℂ) : ℕ → ℂ × ℂ :=
  colOp crossinvT2c crossinvC2t d (fun r => epsOf (d.epsInv r)) (-1 / (d.N : ℝ)) x

theorem fft_get {W : ℕ → ℕ → ℂ} {N num : ℕ} {inp inp' : ℕ → ℂ} (out out' : ℕ → ℂ) {b : ℕ} (hb : b < num)
    (h : ∀ r < N, ∀ c < 3, inp (3 * (r * num + b) + c) = inp' (3 * (r * num + b) + c)) {r c : ℕ} (hr : r < N) (hc : c < 3) :
    computeFft W N (num * 3) inp out (3 * (r * num + b) + c) = computeFft W N (num * 3) inp' out' (3 * (r * num + b) + c) := by
  rw [computeFft_apply W inp out hr hb hc, computeFft_apply W inp' out' hr hb hc]
  exact Finset.sum_congr rfl (fun j hj => by rw [h j (Finset.mem_range.1 hj) c hc])

theorem invStep_apply (d : OpData) (p : ℕ) (buf buf2 X : ℕ → ℂ) (ch : ℕ × ℕ) (hp : ch.1 + ch.2 ≤ p) :
    (∀ G < d.N, ∀ b < ch.2, band p (invStep d p buf buf2 X ch) (ch.1 + b) G = bandInv d (band p X (ch.1 + b)) G) ∧
    (∀ a, (∀ G < d.N, ∀ b < ch.2, ∀ c < 2, a ≠ (G * 2 + c) * p + (ch.1 + b)) → invStep d p buf buf2 X ch a = X a) := by
  unfold invStep
  dsimp only
  rw [timesEps_eq]
  set M : ℕ → HMat := fun r => epsOf (d.epsInv r)
  set g := fillFft crossinvT2c d.od d.ld d.kpg p X buf2 ch.1 ch.2 with hg
  obtain ⟨t1, -⟩ := chain_apply crossinvT2c crossinvC2t d M (-1 / (d.N : ℝ)) X buf2 X hp
  rw [← hg] at t1
  set e := eFromD d.N ch.2 M (computeFft d.Wf d.N (ch.2 * 3) g buf2)
  set e' := eFromD d.N ch.2 M (computeFft d.Wf d.N (ch.2 * 3) g buf)
  obtain ⟨u1, -⟩ := storeBands_apply crossinvC2t (od := d.od) (ld := d.ld) d.kpg (computeFft d.Wb d.N (ch.2 * 3) e e) X hp (-1 / (d.N : ℝ))
  obtain ⟨v1, v2⟩ := storeBands_apply crossinvC2t (od := d.od) (ld := d.ld) d.kpg (computeFft d.Wb d.N (ch.2 * 3) e' g) X hp (-1 / (d.N : ℝ))
  refine ⟨fun G hG b hb => ?_, v2⟩
  refine (v1 G hG b hb).trans (Eq.trans ?_ (t1 G hG b hb))
  refine Eq.trans ?_ (u1 G hG b hb).symm
  have he : ∀ r < d.N, ∀ c < 3, e' (3 * (r * ch.2 + b) + c) = e (3 * (r * ch.2 + b) + c) := by
    intro r hr c hc
    refine (eFromD_apply M _ hr hb c hc).trans (Eq.trans ?_ (eFromD_apply M _ hr hb c hc).symm)
    congr 2
    ext
    · exact fft_get _ _ hb (fun _ _ _ _ => rfl) hr (by omega)
    · exact fft_get _ _ hb (fun _ _ _ _ => rfl) hr (by omega)
    · exact fft_get _ _ hb (fun _ _ _ _ => rfl) hr (by omega)
  congr 1
  ext
  · exact fft_get _ _ hb he hG (by omega)
  · exact fft_get _ _ hb he hG (by omega)
  · exact fft_get _ _ hb he hG (by omega)

theorem invBands_apply (d : OpData) (p : ℕ) (hn : 0 < d.nfb) (bufs : ℕ → (ℕ → ℂ) × (ℕ → ℂ)) (X : ℕ → ℂ) :
    ∃ R, invBands d p bufs X = some R ∧ (∀ b < p, ∀ G < d.N, band p R b G = bandInv d (band p X b) G) ∧
      (∀ a, d.N * 2 * p ≤ a → R a = X a) := by
  unfold invBands
  rw [if_neg (by omega)]
  obtain ⟨h1, h2⟩ := chunks_inplace (N := d.N) (p := p) hn (fun X ch => invStep d p (bufs ch.1).1 (bufs ch.1).2 X ch) (bandInv d)
    (fun x y h G _ => colOp_congr _ _ _ _ _ h G) (fun X ch hch => invStep_apply d p _ _ X ch hch) 0 X (by omega)
  refine ⟨_, rfl, fun b hb G hG => h1 b (by omega) hb G hG, fun a ha => h2 a (fun G hG b _ hb c hc e => ?_)⟩
  have : (G * 2 + c) * p + b < d.N * 2 * p := rowMajor_lt (rowMajor_lt hG hc) hb
  omega

end Mpb.Target

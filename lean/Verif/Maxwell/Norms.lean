import Verif.Maxwell.Props
import Verif.Target.Precond

/-!
# The array of squared lengths of the wavevectors, and the diagonal preconditioner that uses it (C01, C79)
-/

namespace Mpb.Maxwell

open Mpb.Maxwell.Spec Mpb.Target Mpb.Target.Spec

/-- The array `k_plus_G_normsqr` filled by the triple loop of `update_maxwell_data_k`, maxwell.c:442-511 (`*kpGn2 = a`, with `kpGn2++` along with `kpG++`;
serial). -/
noncomputable def updateN2 (nx ny nz : ℕ) (G1 G2 G3 k : V3 ℝ) : List ℝ :=
  (loop3 nx ny nz).map fun i => kNormSqr (kplusG G1 G2 G3 k (harm nx i.1) (harm ny i.2.1) (harm nz i.2.2))

/-- C01, squared lengths: the entry of `k_plus_G_normsqr` belonging to a grid point is the squared length of its wavevector, which is the square of the
length stored with the basis vectors; there are `nx*ny*nz` of them. -/
theorem C01_norms (nx ny nz : ℕ) (G1 G2 G3 k : V3 ℝ) :
    (updateN2 nx ny nz G1 G2 G3 k).length = nx * ny * nz ∧
    ∀ x y z, x < nx → y < ny → z < nz → ∃ kd a, (updateK nx ny nz G1 G2 G3 k)[(x * ny + y) * nz + z]? = some kd ∧
      (updateN2 nx ny nz G1 G2 G3 k)[(x * ny + y) * nz + z]? = some a ∧ a = kd.kmag ^ 2 ∧ 0 ≤ kd.kmag ∧
      a = V3.dot (waveVec G1 G2 G3 k ⟨-harm nx x, -harm ny y, -harm nz z⟩) (waveVec G1 G2 G3 k ⟨-harm nx x, -harm ny y, -harm nz z⟩) := by
  refine ⟨by rw [updateN2, List.length_map, length_loop3], ?_⟩
  intro x y z hx hy hz
  refine ⟨_, kNormSqr (kplusG G1 G2 G3 k (harm nx x) (harm ny y) (harm nz z)), updateK_get hx hy hz G1 G2 G3 k, ?_, ?_, ?_, ?_⟩
  · rw [updateN2, List.getElem?_map, getElem?_loop3 hx hy hz]
    rfl
  · rw [(kData_isBasis _).kmag_sq, kNormSqr]
    ring
  · exact (kData_isBasis _).kmag_nonneg
  · rw [kplusG_eq]
    rfl

/-- C79 with the arrays of the program: in a homogeneous isotropic medium, when no stored squared length is zero, the diagonal preconditioner reading
`k_plus_G_normsqr` undoes the operator that uses the basis vectors `k_plus_G`, and the other way round. -/
theorem C79_diagonal (d : OpData) (hn : 0 < d.nfb) (hI : InverseTransforms d) (hmu : d.muInv = none) {e : ℝ} (he0 : 0 < e)
    (he : ∀ r < d.N, d.epsInv r = ⟨e, e, e, 0, 0, 0⟩) (nx ny nz : ℕ) (G1 G2 G3 k : V3 ℝ) (hN : d.N = nx * ny * nz)
    (hk : ∀ G < d.N, (updateK nx ny nz G1 G2 G3 k)[G]? = some (d.kpg G)) (n2 : ℕ → ℝ)
    (hn2 : ∀ G < d.N, (updateN2 nx ny nz G1 G2 G3 k)[G]? = some (n2 G)) (h0 : ∀ G < d.N, n2 G ≠ 0) (p : ℕ) (bufs : ℕ → ℕ → ℂ) (X Y : ℕ → ℂ) :
    (∃ R, maxwellOperator d p bufs X Y = some R ∧ ∀ b < p, ∀ G < d.N, band p (simplePrecondition d.N 2 p n2 e R) b G = band p X b G) ∧
    (∃ R, maxwellOperator d p bufs (simplePrecondition d.N 2 p n2 e X) Y = some R ∧ ∀ b < p, ∀ G < d.N, band p R b G = band p X b G) := by
  have hlen : ∀ G < d.N, ∃ v : ℕ × ℕ × ℕ, (loop3 nx ny nz)[G]? = some v := by
    intro G hG
    have : G < (loop3 nx ny nz).length := by rw [length_loop3]; omega
    exact ⟨_, List.getElem?_eq_getElem this⟩
  set W : ℕ × ℕ × ℕ → V3 ℝ := fun i => kplusG G1 G2 G3 k (harm nx i.1) (harm ny i.2.1) (harm nz i.2.2) with hW
  set K : ℕ → V3 ℝ := fun G => W ((loop3 nx ny nz)[G]?.getD (0, 0, 0)) with hKd
  have hd : ∀ G < d.N, d.kpg G = kData (K G) ∧ n2 G = kNormSqr (K G) := by
    intro G hG
    obtain ⟨v, hv⟩ := hlen G hG
    have h1 := hk G hG
    have h2 := hn2 G hG
    rw [updateK, List.getElem?_map, hv] at h1
    rw [updateN2, List.getElem?_map, hv] at h2
    simp only [Option.map_some, Option.some.injEq] at h1 h2
    refine ⟨h1.symm.trans ?_, h2.symm.trans ?_⟩
    · simp only [hKd, hv, Option.getD_some, hW]
    · simp only [hKd, hv, Option.getD_some, hW]
  have hK : ∀ G < d.N, IsBasis (K G) (d.kpg G) := fun G hG => by
    rw [(hd G hG).1]
    exact kData_isBasis _
  have hz : ∀ G < d.N, K G ≠ 0 := by
    intro G hG h
    apply h0 G hG
    rw [(hd G hG).2, h]
    simp [kNormSqr]
  have := C79_exact_inverse d hn hI hmu he0 he K hK hz n2 (fun G hG => (hd G hG).2) p bufs (fun _ => (fun _ => 0, fun _ => 0)) X Y
  exact this.2.2

/-- The hypotheses are met by one plane wave along x: the arrays for a 1×1×1 grid at `k = (2, 0, 0)`. -/
example : (updateK 1 1 1 ⟨1, 0, 0⟩ ⟨0, 1, 0⟩ ⟨0, 0, 1⟩ ⟨2, 0, 0⟩)[0]? = some (kData ⟨2, 0, 0⟩) ∧
    (updateN2 1 1 1 ⟨1, 0, 0⟩ ⟨0, 1, 0⟩ ⟨0, 0, 1⟩ ⟨2, 0, 0⟩)[0]? = some 4 := by
  constructor
  · have h := updateK_get (nx := 1) (ny := 1) (nz := 1) (x := 0) (y := 0) (z := 0) one_pos one_pos one_pos ⟨1, 0, 0⟩ ⟨0, 1, 0⟩ ⟨0, 0, 1⟩ ⟨2, 0, 0⟩
    simp only [Nat.zero_mul, Nat.zero_add] at h
    rw [h]
    simp [kplusG, cartK, harm]
  · have h := getElem?_loop3 (n := 1) (m := 1) (l := 1) (i := 0) (j := 0) (k := 0) one_pos one_pos one_pos
    simp only [Nat.zero_mul, Nat.zero_add] at h
    rw [updateN2, List.getElem?_map, h]
    simp [kplusG, cartK, harm, kNormSqr]
    norm_num

end Mpb.Maxwell

import Verif.Moment.Sums
import Verif.Moment.Exact

/-!
# The meshes pass the program's checks
-/

namespace Mpb.Moment
open Mpb.Tensor

/-- What the entries of a table for the unit sphere satisfy. -/
structure Good (rank : ℕ) (l : List Entry) : Prop where
  len : l.length ≤ 50
  weights : (l.map Prod.snd).sum = 1
  unit : ∀ e ∈ l, len2 e.1 = 1
  inv : Invariant (fun v => -v) l
  sym : ∀ Q, MeshSym rank Q → Invariant Q l

theorem Good.perm {rank : ℕ} {l l' : List Entry} (h : Good rank l) (hp : l'.Perm l) : Good rank l' where
  len := by rw [hp.length_eq]; exact h.len
  weights := by rw [(hp.map Prod.snd).sum_eq]; exact h.weights
  unit := fun e he => h.unit e (hp.mem_iff.mp he)
  inv := h.inv.congr hp
  sym := fun Q hQ => (h.sym Q hQ).congr hp

theorem good1 : Good 1 [(⟨1, 0, 0⟩, 1 / 2), (⟨-1, 0, 0⟩, 1 / 2)] where
  len := by decide
  weights := by norm_num
  unit := by
    intro e he
    simp only [List.mem_cons, List.not_mem_nil, or_false] at he
    rcases he with rfl | rfl <;> simp [len2, V3.dot]
  inv := by
    unfold Invariant
    have h1 : -(⟨1, 0, 0⟩ : V3 ℝ) = ⟨-1, 0, 0⟩ := by ext <;> simp
    have h2 : -(⟨-1, 0, 0⟩ : V3 ℝ) = ⟨1, 0, 0⟩ := by ext <;> simp
    simp only [List.map_cons, List.map_nil, h1, h2]
    exact List.Perm.swap _ _ _
  sym := by
    rintro Q (⟨h1, h2⟩ | ⟨h1, h2⟩) <;> unfold Invariant <;> simp only [List.map_cons, List.map_nil, h1, h2]
    · exact List.Perm.refl _
    · exact List.Perm.swap _ _ _

theorem good2 : Good 2 circle where
  len := by simp [circle]
  weights := by
    rw [circle_eq, List.map_map]
    simp [Function.comp_def]
    norm_num
  unit := by
    intro e he
    rw [circle_eq, List.mem_map] at he
    obtain ⟨i, -, rfl⟩ := he
    simp only [len2, V3.dot, onCircle]
    have := Real.cos_sq_add_sin_sq (2 * ((i : ℤ) : ℝ) * Real.pi / 12)
    nlinarith
  inv := by
    have h := circle_invariant 6 false false
    unfold Invariant at h ⊢
    refine List.Perm.trans (List.Perm.of_eq (List.map_congr_left fun e he => ?_)) h
    rw [circle_eq, List.mem_map] at he
    obtain ⟨i, -, rfl⟩ := he
    have e6 : (2 * ((6 : ℕ) : ℝ) * Real.pi / 12) = Real.pi := by push_cast; ring
    simp only [dihedral, e6, Prod.mk.injEq, and_true]
    ext <;> simp [onCircle]
  sym := by
    rintro Q ⟨m, refl, flip, rfl⟩
    exact circle_invariant m refl flip

theorem codes_unit : ∀ c ∈ codes, c.1.x * c.1.x + c.1.y * c.1.y + c.1.z * c.1.z = (norm2 c.2 : ℤ) := by decide

theorem good3 : Good 3 (codes.map interp) where
  len := by rw [List.length_map]; decide
  weights := by
    have := even_power ⟨0, 0, 0⟩ 0 (by omega)
    simpa using this
  unit := by
    intro e he
    rw [List.mem_map] at he
    obtain ⟨c, hc, rfl⟩ := he
    have h1 := codes_unit c hc
    have h2 := scale_sq c.2
    have h3 : (norm2 c.2 : ℝ) ≠ 0 := by
      unfold norm2
      split_ifs <;> norm_num
    have h1' : (c.1.x : ℝ) * c.1.x + c.1.y * c.1.y + c.1.z * c.1.z = (norm2 c.2 : ℝ) := by exact_mod_cast h1
    have h4 : len2 (interp c).1 = (c.1.x * c.1.x + c.1.y * c.1.y + c.1.z * c.1.z) * scale c.2 ^ 2 := by
      simp only [len2, V3.dot, interp]; ring
    rw [h4, h1', h2]
    field_simp
  inv := quadrature_inversion
  sym := by
    rintro Q ⟨S, rfl⟩
    exact quadrature_invariant S

theorem sphereQuad_good (fl : ℝ → ℝ) (n : V3 ℕ) : ∃ tbl, sphereQuad fl (rankOf n) = some tbl ∧ Good (rankOf n) tbl := by
  unfold rankOf
  split_ifs
  · exact ⟨_, by simp only [sphereQuad, quadrature_codes, Option.map_some], good3.perm (sorted_perm fl _)⟩
  · exact ⟨_, rfl, good2.perm (sorted_perm fl _)⟩
  · exact ⟨_, rfl, good1⟩

/-- The offset in lattice coordinates of the point `v` of the unit sphere. -/
noncomputable def offset (n : V3 ℕ) (R G : M3 ℝ) (v : V3 ℝ) : V3 ℝ :=
  let u : V3 ℝ := V3.smul (meshR (rankOf n) * maxDiam (rankOf n) n R) v
  ⟨G.c0.dot u, G.c1.dot u, G.c2.dot u⟩

theorem getMomentMesh_eq (fl : ℝ → ℝ) (n : V3 ℕ) (R G : M3 ℝ) :
    ∃ tbl, Good (rankOf n) tbl ∧ sphereQuad fl (rankOf n) = some tbl ∧ getMomentMesh fl n R G = some (tbl.map fun e => (offset n R G e.1, e.2)) := by
  obtain ⟨tbl, h1, hg⟩ := sphereQuad_good fl n
  refine ⟨tbl, hg, h1, ?_⟩
  have hs : (0 : ℝ) < small := by unfold small; norm_num
  unfold getMomentMesh
  simp only [h1, Option.bind_some, List.map_map, List.length_map]
  rw [if_pos hg.len]
  have hw : (List.map (Prod.snd ∘ fun e : Entry => ((⟨e.1.x * meshR (rankOf n), e.1.y * meshR (rankOf n), e.1.z * meshR (rankOf n)⟩ : V3 ℝ), e.2)) tbl).sum = 1 := hg.weights
  rw [hw, if_pos (by simpa using hs), if_pos, if_pos]
  · congr 1
    refine List.map_congr_left fun e _ => ?_
    simp only [Function.comp_apply, offset, Prod.mk.injEq, and_true]
    have : (⟨e.1.x * meshR (rankOf n) * maxDiam (rankOf n) n R, e.1.y * meshR (rankOf n) * maxDiam (rankOf n) n R,
        e.1.z * meshR (rankOf n) * maxDiam (rankOf n) n R⟩ : V3 ℝ) = V3.smul (meshR (rankOf n) * maxDiam (rankOf n) n R) e.1 := by
      ext <;> simp <;> ring
    rw [this]
  · rw [odd_sum hg.inv _ (fun v w => by simp), odd_sum hg.inv _ (fun v w => by simp), odd_sum hg.inv _ (fun v w => by simp)]
    simpa using hs
  · intro e he
    rw [List.mem_map] at he
    obtain ⟨e, he, rfl⟩ := he
    have := hg.unit e he
    simp only [Function.comp_apply]
    have h4 : e.1.x * meshR (rankOf n) * maxDiam (rankOf n) n R * (e.1.x * meshR (rankOf n) * maxDiam (rankOf n) n R) +
        e.1.y * meshR (rankOf n) * maxDiam (rankOf n) n R * (e.1.y * meshR (rankOf n) * maxDiam (rankOf n) n R) +
        e.1.z * meshR (rankOf n) * maxDiam (rankOf n) n R * (e.1.z * meshR (rankOf n) * maxDiam (rankOf n) n R) -
        maxDiam (rankOf n) n R * maxDiam (rankOf n) n R * (meshR (rankOf n) * meshR (rankOf n)) =
        (len2 e.1 - 1) * (maxDiam (rankOf n) n R * maxDiam (rankOf n) n R * (meshR (rankOf n) * meshR (rankOf n))) := by
      simp only [len2, V3.dot]; ring
    rw [h4, this]
    simpa using hs

end Mpb.Moment

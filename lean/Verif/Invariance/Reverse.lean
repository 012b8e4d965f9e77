import Verif.Invariance.Rotate

/-! # C103: reversing the wavevector, and wavevectors that differ by a reciprocal lattice vector -/

namespace Mpb.Invariance
open Mpb.Maxwell Mpb.Maxwell.Spec Spec Mpb.Moment

local notation "conj" => starRingEnd ℂ

/-! ### Conjugation of everything -/

/-- Conjugate of a vector. -/
noncomputable def conjV (v : V3 ℂ) : V3 ℂ := ⟨conj v.x, conj v.y, conj v.z⟩

/-- Conjugate of a pair of amplitudes. -/
noncomputable def conjP (v : ℂ × ℂ) : ℂ × ℂ := (conj v.1, conj v.2)

/-- The problem with conjugate transforms (up to a phase for each grid point) and other tensors. -/
noncomputable def flipData (φ : ℕ → ℂ) (d : OpData) (e' : ℕ → HMat) (m' : Option (ℕ → HMat)) : OpData :=
  { d with epsInv := e', muInv := m', Wf := fun r G => φ r * conj (d.Wf r G), Wb := fun G r => conj (φ r) * conj (d.Wb G r) }

theorem mulVec_conj {e e' : HMat} (h : Conjugate e e') (u : V3 ℂ) : e'.mulVec (conjV u) = conjV (e.mulVec u) := by
  have h' : ∀ i j, Tensor.Spec.toMatrix e' i j = conj (Tensor.Spec.toMatrix e i j) := fun i j => by rw [h]; rfl
  have h00 := h' 0 0; have h11 := h' 1 1; have h22 := h' 2 2; have h01 := h' 0 1; have h02 := h' 0 2; have h12 := h' 1 2
  simp [Tensor.Spec.toMatrix] at h00 h11 h22 h01 h02 h12
  ext <;> apply Complex.ext <;> simp [HMat.mulVec, conjV, h00, h11, h22, h01, h02, h12] <;> ring

theorem transform_conj {W W' : ℕ → ℕ → ℂ} {N : ℕ} {c : ℂ} {u : ℕ → V3 ℂ} {r : ℕ} (hW : ∀ j < N, W' r j = c * conj (W r j)) :
    transform W' N (fun j => conjV (u j)) r = V3.smul c (conjV (transform W N u r)) := by
  have key : ∀ f : V3 ℂ → ℂ, ∑ j ∈ Finset.range N, W' r j * conj (f (u j)) = c * conj (∑ j ∈ Finset.range N, W r j * f (u j)) := by
    intro f
    rw [map_sum, Finset.mul_sum]
    refine Finset.sum_congr rfl fun j hj => ?_
    rw [hW j (Finset.mem_range.1 hj), map_mul]
    ring
  ext
  · exact key V3.x
  · exact key V3.y
  · exact key V3.z

theorem colOp_conj {ex : KData → ℂ → ℂ → V3 ℂ} {co : KData → V3 ℂ → ℝ → ℂ × ℂ} {φ : ℕ → ℂ} {d : OpData} {e' : ℕ → HMat}
    {m' : Option (ℕ → HMat)} {M M' : ℕ → HMat} {s : ℝ} (hex : ∀ k a b, ex k (conj a) (conj b) = conjV (ex k a b))
    (hco : ∀ k a, co k (conjV a) s = conjP (co k a s)) (hM : ∀ r < d.N, Conjugate (M r) (M' r)) (hφ : ∀ r < d.N, conj (φ r) * φ r = 1)
    (x : ℕ → ℂ × ℂ) (G : ℕ) :
    colOp ex co (flipData φ d e' m') M' s (fun G => conjP (x G)) G = conjP (colOp ex co d M s x G) := by
  unfold colOp
  have h1 : ∀ r, transform (flipData φ d e' m').Wf d.N (fun G => ex (d.kpg G) (conjP (x G)).1 (conjP (x G)).2) r =
      V3.smul (φ r) (conjV (transform d.Wf d.N (fun G => ex (d.kpg G) (x G).1 (x G).2) r)) := by
    intro r
    rw [show (fun G => ex (d.kpg G) (conjP (x G)).1 (conjP (x G)).2) = fun G => conjV (ex (d.kpg G) (x G).1 (x G).2) from
      funext fun G => hex _ _ _]
    exact transform_conj fun j _ => rfl
  have h2 : transform (flipData φ d e' m').Wb d.N
      (fun r => (M' r).mulVec (transform (flipData φ d e' m').Wf d.N (fun G => ex (d.kpg G) (conjP (x G)).1 (conjP (x G)).2) r)) G =
      conjV (transform d.Wb d.N (fun r => (M r).mulVec (transform d.Wf d.N (fun G => ex (d.kpg G) (x G).1 (x G).2) r)) G) := by
    have one3 : ∀ v : V3 ℂ, V3.smul 1 v = v := fun v => by ext <;> simp
    have := transform_conj (W := d.Wb) (W' := fun G r => conj (d.Wb G r)) (N := d.N) (c := 1)
      (u := fun r => (M r).mulVec (transform d.Wf d.N (fun G => ex (d.kpg G) (x G).1 (x G).2) r)) (r := G) (fun j _ => (one_mul _).symm)
    rw [one3] at this
    rw [← this]
    have key : ∀ f : V3 ℂ → ℂ, (∀ (c : ℂ) v, f (V3.smul c v) = c * f v) →
        ∑ r ∈ Finset.range d.N, (flipData φ d e' m').Wb G r *
          f ((M' r).mulVec (transform (flipData φ d e' m').Wf d.N (fun G => ex (d.kpg G) (conjP (x G)).1 (conjP (x G)).2) r)) =
        ∑ r ∈ Finset.range d.N, conj (d.Wb G r) * f (conjV ((M r).mulVec (transform d.Wf d.N (fun G => ex (d.kpg G) (x G).1 (x G).2) r))) := by
      intro f hf
      refine Finset.sum_congr rfl fun r hr => ?_
      rw [Finset.mem_range] at hr
      rw [h1, mulVec_smul, mulVec_conj (hM r hr), hf]
      show conj (φ r) * conj (d.Wb G r) * _ = _
      linear_combination conj (d.Wb G r) * f (conjV ((M r).mulVec (transform d.Wf d.N (fun G => ex (d.kpg G) (x G).1 (x G).2) r))) * hφ r hr
    ext
    · exact key V3.x fun _ _ => rfl
    · exact key V3.y fun _ _ => rfl
    · exact key V3.z fun _ _ => rfl
  show co (d.kpg G) _ s = _
  rw [show (flipData φ d e' m').N = d.N from rfl]
  exact (congrArg (fun v => co (d.kpg G) v s) h2).trans (hco _ _)

theorem crossT2c_conj (k : KData) (a b : ℂ) : crossT2c k (conj a) (conj b) = conjV (crossT2c k a b) := by
  ext <;> apply Complex.ext <;> simp [crossT2c, conjV] <;> ring

theorem t2c_conj (k : KData) (a b : ℂ) : t2c k (conj a) (conj b) = conjV (t2c k a b) := by
  ext <;> apply Complex.ext <;> simp [t2c, conjV] <;> ring

theorem crossC2t_conj (k : KData) (a : V3 ℂ) (s : ℝ) : crossC2t k (conjV a) s = conjP (crossC2t k a s) := by
  refine Prod.ext ?_ ?_ <;> apply Complex.ext <;> simp [crossC2t, conjV, conjP] <;> ring

theorem c2t_conj (k : KData) (a : V3 ℂ) (s : ℝ) : c2t k (conjV a) s = conjP (c2t k a s) := by
  refine Prod.ext ?_ ?_ <;> apply Complex.ext <;> simp [c2t, conjV, conjP] <;> ring

/-- Conjugation of all amplitudes. -/
noncomputable def conjX : (ℕ → ℂ) ≃ₛₗ[starRingEnd ℂ] (ℕ → ℂ) where
  toFun X a := conj (X a)
  invFun X a := conj (X a)
  map_add' X Y := by funext a; simp
  map_smul' c X := by funext a; simp
  left_inv X := by funext a; simp
  right_inv X := by funext a; simp

theorem band_conjX (X : ℕ → ℂ) : band 1 (conjX X) 0 = fun G => conjP (band 1 X 0 G) := by
  funext G
  rw [band1, band1]
  rfl

theorem conjP_eq {v w : ℂ × ℂ} : conjP v = conjP w ↔ v = w := by
  constructor
  · intro h
    refine Prod.ext ?_ ?_
    · exact (starRingEnd ℂ).injective (congrArg Prod.fst h)
    · exact (starRingEnd ℂ).injective (congrArg Prod.snd h)
  · rintro rfl; rfl

theorem isMode_conj {φ : ℕ → ℂ} {d : OpData} {e' : ℕ → HMat} {m' : Option (ℕ → HMat)} (he : ∀ r < d.N, Conjugate (d.epsInv r) (e' r))
    (hm : Both (fun f f' => ∀ r < d.N, Conjugate (f r) (f' r)) d.muInv m') (hφ : ∀ r < d.N, conj (φ r) * φ r = 1) (lam : ℝ) (X : ℕ → ℂ) :
    IsMode d lam X ↔ IsMode (flipData φ d e' m') lam (conjX X) := by
  rcases Nat.eq_zero_or_pos d.nfb with h0 | hpos
  · exact iff_of_false (not_isMode _ h0 _ _) (not_isMode (flipData φ d e' m') h0 _ _)
  rw [isMode_iff _ hpos, isMode_iff (flipData φ d e' m') hpos, band_conjX]
  have o : ∀ x G, bandOp (flipData φ d e' m') (fun G => conjP (x G)) G = conjP (bandOp d x G) := fun x G =>
    colOp_conj crossT2c_conj (fun k a => crossC2t_conj k a _) he hφ x G
  have hb : ∀ x G, bandMaxwell (flipData φ d e' m') (fun G => conjP (x G)) G = conjP (bandMaxwell d x G) ∧
      bandMuinv (flipData φ d e' m') (fun G => conjP (x G)) G = conjP (bandMuinv d x G) := by
    rcases hm with ⟨m1, m2⟩ | ⟨mu, mu', m1, m2, hmv⟩
    · intro x G
      have m2' : (flipData φ d e' m').muInv = none := m2
      unfold bandMaxwell bandMuinv
      rw [m1, m2']
      exact ⟨o x G, rfl⟩
    · intro x G
      have m2' : (flipData φ d e' m').muInv = some mu' := m2
      have o2 : ∀ x G, bandMu (flipData φ d e' m') mu' (fun G => conjP (x G)) G = conjP (bandMu d mu x G) := fun x G =>
        colOp_conj t2c_conj (fun k a => c2t_conj k a _) hmv hφ x G
      unfold bandMaxwell bandMuinv
      rw [m1, m2']
      dsimp only
      refine ⟨?_, o2 x G⟩
      rw [show bandMu (flipData φ d e' m') mu' (fun G => conjP (x G)) = fun G => conjP (bandMu d mu x G) from funext (o2 x)]
      rw [show bandOp (flipData φ d e' m') (fun G => conjP (bandMu d mu x G)) = fun G => conjP (bandOp d (bandMu d mu x) G) from funext (o _)]
      exact o2 _ G
  refine and_congr ?_ ?_
  · refine exists_congr fun G => and_congr_right fun _ => not_congr ?_
    have : conjP (0, 0) = (0, 0) := by simp [conjP]
    rw [← this, conjP_eq, this]
  · refine forall_congr' fun G => imp_congr_right fun _ => ?_
    rw [(hb _ G).1, (hb _ G).2]
    have : ∀ v : ℂ × ℂ, ((lam : ℂ) * (conjP v).1, (lam : ℂ) * (conjP v).2) = conjP ((lam : ℂ) * v.1, (lam : ℂ) * v.2) := by
      intro v
      simp [conjP]
    rw [this, conjP_eq]

/-! ### Reflection of the planewaves -/

theorem skew_le {n x : ℕ} (hx : x < n) : x + skew n ≤ 2 * n := by
  unfold skew; split_ifs <;> omega

theorem reflect_reflect {n x : ℕ} (hx : x < n) : (2 * n - (2 * n - x - skew n) % n - skew n) % n = x := by
  have h := skew_le hx
  have hs : skew n ≤ n := by unfold skew; split_ifs <;> omega
  have hn : 0 < n := by omega
  rcases Nat.lt_or_ge (2 * n - x - skew n) n with h1 | h1
  · rw [Nat.mod_eq_of_lt h1]
    have : 2 * n - (2 * n - x - skew n) - skew n = x := by omega
    rw [this, Nat.mod_eq_of_lt hx]
  · rcases Nat.lt_or_ge (2 * n - x - skew n) (2 * n) with h2 | h2
    · rw [Nat.mod_eq_sub_mod h1, Nat.mod_eq_of_lt (by omega : 2 * n - x - skew n - n < n)]
      have : 2 * n - (2 * n - x - skew n - n) - skew n = x + n := by omega
      rw [this, Nat.add_mod_right, Nat.mod_eq_of_lt hx]
    · have e : 2 * n - x - skew n = n + n := by omega
      rw [e, Nat.add_mod_right, Nat.mod_self]
      have e2 : 2 * n - 0 - skew n = x + n + n := by omega
      rw [e2, Nat.add_mod_right, Nat.add_mod_right, Nat.mod_eq_of_lt hx]

/-- The reflection of the planewaves about the middle of the kept set. -/
def reflectMap (n : V3 ℕ) : GridMap n n where
  dir t := ((2 * n.x - t.1 - skew n.x) % n.x, (2 * n.y - t.2.1 - skew n.y) % n.y, (2 * n.z - t.2.2 - skew n.z) % n.z)
  inv t := ((2 * n.x - t.1 - skew n.x) % n.x, (2 * n.y - t.2.1 - skew n.y) % n.y, (2 * n.z - t.2.2 - skew n.z) % n.z)
  size := rfl
  toBox t h := ⟨Nat.mod_lt _ (by have := h.1; omega), Nat.mod_lt _ (by have := h.2.1; omega), Nat.mod_lt _ (by have := h.2.2; omega)⟩
  invBox t h := ⟨Nat.mod_lt _ (by have := h.1; omega), Nat.mod_lt _ (by have := h.2.1; omega), Nat.mod_lt _ (by have := h.2.2; omega)⟩
  left t h := by
    refine Prod.ext ?_ (Prod.ext ?_ ?_)
    · exact reflect_reflect h.1
    · exact reflect_reflect h.2.1
    · exact reflect_reflect h.2.2
  right t h := by
    refine Prod.ext ?_ (Prod.ext ?_ ?_)
    · exact reflect_reflect h.1
    · exact reflect_reflect h.2.1
    · exact reflect_reflect h.2.2

theorem reflect_dvd {n x : ℕ} (hx : x < n) : (n : ℤ) ∣ ((2 * n - x - skew n) % n : ℕ) + x + skew n := by
  have h := skew_le hx
  have h2 := Nat.mod_add_div (2 * n - x - skew n) n
  refine ⟨2 - ((2 * n - x - skew n) / n : ℕ), ?_⟩
  have h3 : (((2 * n - x - skew n) % n : ℕ) : ℤ) + n * ((2 * n - x - skew n) / n : ℕ) = 2 * n - x - skew n := by
    have : ((2 * n - x - skew n : ℕ) : ℤ) = 2 * n - x - skew n := by omega
    rw [← this]
    exact_mod_cast h2
  linear_combination h3

theorem harm_reflect {n x : ℕ} (hx : x < n) : -harm n ((2 * n - x - skew n) % n) = skew n + harm n x := by
  obtain ⟨q, hq⟩ := reflect_dvd hx
  have hlt : (2 * n - x - skew n) % n < n := Nat.mod_lt _ (by omega)
  generalize (2 * n - x - skew n) % n = y at hq hlt
  have hq0 : 0 ≤ q := by
    by_contra hc
    have : (n : ℤ) * q ≤ n * (-1) := by gcongr; omega
    omega
  have hq4 : q ≤ 3 := by
    by_contra hc
    have : (n : ℤ) * 4 ≤ n * q := by gcongr; omega
    unfold skew at hq
    split_ifs at hq <;> omega
  unfold skew harm at *
  interval_cases q <;> split_ifs at * <;> omega

theorem chi_reflect {n x : ℕ} (hx : x < n) (r : ℕ) : chi n (-(r * ((2 * n - x - skew n) % n : ℕ))) = chi n (r * skew n) * conj (chi n (-(r * x))) := by
  rw [chi_conj, ← chi_add]
  refine chi_congr (by omega) ?_
  obtain ⟨q, hq⟩ := reflect_dvd hx
  refine ⟨-(r * q), ?_⟩
  linear_combination -(r : ℤ) * hq

/-- The phase of the reciprocal lattice vector by which the middle of the kept set differs from zero. -/
noncomputable def skewPhase (n : V3 ℕ) (r : ℕ) : ℂ :=
  chi n.x ((coords n r).1 * skew n.x) * chi n.y ((coords n r).2.1 * skew n.y) * chi n.z ((coords n r).2.2 * skew n.z)

theorem app_neg_one (v : V3 ℝ) : app (-1) v = ⟨-v.x, -v.y, -v.z⟩ := by
  simp [app]

theorem neg_one_orth : (-1 : Matrix (Fin 3) (Fin 3) ℝ).transpose * (-1) = 1 := by simp

theorem link_neg {K : V3 ℝ} {k' : KData} (h : k' = kData (app (-1) K)) :
    ∃ a b c e, Link (-1) (kData K) k' a b c e ∧ a * a + c * c = 1 ∧ b * b + e * e = 1 ∧ a * b + c * e = 0 := by
  subst h
  by_cases hK : K = ⟨0, 0, 0⟩
  · subst hK
    have e : app (-1) (⟨0, 0, 0⟩ : V3 ℝ) = ⟨0, 0, 0⟩ := by simp [app]
    rw [e]
    refine ⟨-1, 0, 0, -1, ⟨?_, ?_, ?_, ?_⟩, by norm_num, by norm_num, by norm_num⟩ <;> ext <;> simp [app]
  · exact exists_link neg_one_orth (kData_isBasis K) (kData_isBasis _) hK

/-- C103, in part.  The kept planewaves are symmetric not about 0 but about half of `skew`; so what holds exactly is: the frequencies at
`-k - skew` (coordinates in the reciprocal basis) are those at `k`, with the same multiplicities, for every grid, lattice, wavevector,
permittivity and permeability (conjugate tensors; the same structure if they are real). -/
theorem C103_reversal_partial {P P' : Problem}
    (h : Reversed ⟨-P.k.x - skew P.nx, -P.k.y - skew P.ny, -P.k.z - skew P.nz⟩ P P') : MirrorModes P.data P'.data := by
  classical
  obtain ⟨nx, ny, nz, nfb, Rm, kk, e', m'⟩ := P'
  obtain ⟨h1, h2, h3, h4, h5, h6, he, hm⟩ := h
  dsimp only at h1 h2 h3 h4 h5 h6 he hm
  subst h1 h2 h3 h4 h5 h6
  set n : V3 ℕ := ⟨P.nx, P.ny, P.nz⟩ with hn
  set P' : Problem := ⟨P.nx, P.ny, P.nz, P.nfb, P.Rm, ⟨-P.k.x - skew P.nx, -P.k.y - skew P.ny, -P.k.z - skew P.nz⟩, e', m'⟩ with hP'
  have hφ : ∀ r < P.data.N, conj (skewPhase n r) * skewPhase n r = 1 := by
    intro r _
    unfold skewPhase
    simp only [map_mul]
    have a1 := chi_normSq n.x ((coords n r).1 * skew n.x)
    have a2 := chi_normSq n.y ((coords n r).2.1 * skew n.y)
    have a3 := chi_normSq n.z ((coords n r).2.2 * skew n.z)
    calc _ = (chi n.x ((coords n r).1 * skew n.x) * conj (chi n.x ((coords n r).1 * skew n.x))) *
        (chi n.y ((coords n r).2.1 * skew n.y) * conj (chi n.y ((coords n r).2.1 * skew n.y))) *
        (chi n.z ((coords n r).2.2 * skew n.z) * conj (chi n.z ((coords n r).2.2 * skew n.z))) := by ring
      _ = 1 := by rw [a1, a2, a3]; ring
  set D := flipData (skewPhase n) P.data e' m' with hD
  set σ := (reflectMap n).perm with hσ
  have hσlt : ∀ G, σ G < P.data.N ↔ G < P.data.N := (reflectMap n).perm_lt
  have hk : ∀ G < P.data.N, ∃ K, P.data.kpg G = kData K ∧ P'.data.kpg (σ G) = kData (app (-1) K) := by
    intro G hG
    obtain ⟨bG, cG⟩ := box_coords (n := n) hG
    have b' := (reflectMap n).toBox _ bG
    refine ⟨P.wave (coords n G).1 (coords n G).2.1 (coords n G).2.2, ?_, ?_⟩
    · conv_lhs => rw [← cG]
      exact data_kpg P bG.1 bG.2.1 bG.2.2
    · rw [(reflectMap n).perm_apply hG]
      refine (data_kpg P' b'.1 b'.2.1 b'.2.2).trans ?_
      congr 1
      unfold Problem.wave
      have e1 := harm_reflect bG.1
      have e2 := harm_reflect bG.2.1
      have e3 := harm_reflect bG.2.2
      have e1' : ((-harm P.nx ((reflectMap n).dir (coords n G)).1 : ℤ) : ℝ) = skew P.nx + harm P.nx (coords n G).1 := by exact_mod_cast e1
      have e2' : ((-harm P.ny ((reflectMap n).dir (coords n G)).2.1 : ℤ) : ℝ) = skew P.ny + harm P.ny (coords n G).2.1 := by exact_mod_cast e2
      have e3' : ((-harm P.nz ((reflectMap n).dir (coords n G)).2.2 : ℤ) : ℝ) = skew P.nz + harm P.nz (coords n G).2.2 := by exact_mod_cast e3
      rw [app_neg_one]
      ext <;> simp only [waveVec, hP', V3.smul, V3.add_x, V3.add_y, V3.add_z, e1', e2', e3'] <;> push_cast <;> ring
  have hex : ∀ G, ∃ t : ℝ × ℝ × ℝ × ℝ, (t.1 * t.1 + t.2.2.1 * t.2.2.1 = 1 ∧ t.2.1 * t.2.1 + t.2.2.2 * t.2.2.2 = 1 ∧ t.1 * t.2.1 + t.2.2.1 * t.2.2.2 = 0) ∧
      (G < P.data.N → Link (-1) (P.data.kpg G) (P'.data.kpg (σ G)) t.1 t.2.1 t.2.2.1 t.2.2.2) := by
    intro G
    by_cases hc : G < P.data.N
    · obtain ⟨K, k1, k2⟩ := hk G hc
      obtain ⟨a, b, c, e, hl, g1, g2, g3⟩ := link_neg k2
      exact ⟨(a, b, c, e), ⟨g1, g2, g3⟩, fun _ => by rw [k1]; exact hl⟩
    · exact ⟨(1, 0, 0, 1), by norm_num, fun g1 => absurd g1 hc⟩
  choose t ht hlink using hex
  let F : Frame D.N := ⟨σ, fun G => ortho (ht G).1 (ht G).2.1 (ht G).2.2, hσlt, fun G v => ortho_norm _ _ _ v⟩
  have hFA : ∀ G, F.A G = ortho (ht G).1 (ht G).2.1 (ht G).2.2 := fun _ => rfl
  have one3 : ∀ v : V3 ℂ, V3.smul 1 v = v := fun v => by ext <;> simp
  have hcoord : ∀ {a}, a < P.data.N → ∀ {b}, b < P.data.N →
      dft (-1) n.x n.y n.z a (σ b) = skewPhase n a * conj (dft (-1) n.x n.y n.z a b) := by
    intro a ha b hb
    obtain ⟨ba, ca⟩ := box_coords (n := n) ha
    obtain ⟨bb, cb⟩ := box_coords (n := n) hb
    rw [(reflectMap n).perm_apply hb]
    unfold skewPhase
    conv_lhs => rw [← ca]
    conv_rhs => rw [← ca, ← cb, coords_cell ba]
    rw [dft_neg_cell ba ((reflectMap n).toBox _ bb), dft_neg_cell ba bb]
    dsimp only [reflectMap]
    rw [chi_reflect bb.1, chi_reflect bb.2.1, chi_reflect bb.2.2]
    simp only [map_mul]
    ring
  have hf : ∀ r < D.N, ∀ G < D.N, P'.data.Wf r (F.σ G) * 1 = D.Wf r G := fun r hr G hG => (mul_one _).trans (hcoord hr hG)
  have hb : ∀ G < D.N, ∀ r < D.N, P'.data.Wb (F.σ G) r = 1 * D.Wb G r := by
    intro G hG r hr
    rw [one_mul]
    show dft 1 n.x n.y n.z (σ G) r = conj (skewPhase n r) * conj (dft 1 n.x n.y n.z G r)
    rw [dft_conj, hcoord hr hG, dft_conj, map_mul]
  have hneg : ∀ (M : HMat) (u : V3 ℂ), M.mulVec (turn (-1) u) = turn (-1) (M.mulVec u) := by
    intro M u
    ext <;> apply Complex.ext <;> simp [HMat.mulVec, turn] <;> ring
  have hsame : SameModes D P'.data 1 := by
    refine sameModes_of_ops (d := D) (d' := P'.data) rfl Iff.rfl F (fun x G hG => ?_) ?_
    · refine colOp_frame (d := D) (d' := P'.data) rfl F (Equiv.refl ℕ) (fun _ => Iff.rfl) (fun _ => 1) 1 hf hb (fun G hG v => ?_) (fun r hr u => ?_)
        (fun G hG a => ?_) x hG
      · obtain ⟨K, k1, k2⟩ := hk G hG
        show crossT2c (P'.data.kpg (σ G)) _ _ = V3.smul 1 (turn 1 (crossT2c (P.data.kpg G) _ _))
        rw [one3, turn_one, k2, k1, C02_curl_t2c _ _ (kData_isBasis _), C02_curl_t2c _ _ (kData_isBasis _)]
        rw [show ((F.A G v).1, (F.A G v).2) = F.A G v from rfl, hFA, ← k2, ← k1, cart_ortho (hlink G hG)]
        rw [cross_turn neg_one_orth]
        have hd : (-1 : Matrix (Fin 3) (Fin 3) ℝ).det = -1 := by rw [Matrix.det_neg]; norm_num
        rw [hd]
        ext <;> simp [turn]
      · rw [turn_one, turn_one]; rfl
      · obtain ⟨K, k1, k2⟩ := hk G hG
        show crossC2t (P'.data.kpg (σ G)) _ _ = F.A G (crossC2t (P.data.kpg G) _ _)
        have hb2 : IsBasis (app (-1) K) (P'.data.kpg (σ G)) := by rw [k2]; exact kData_isBasis _
        have hb1 : IsBasis K (P.data.kpg G) := by rw [k1]; exact kData_isBasis _
        rw [one3, turn_one]
        refine cart_injective hb2 ?_
        rw [C02_curl_c2t _ _ hb2, hFA, cart_ortho (hlink G hG), C02_curl_c2t _ _ hb1, app_neg_one]
        ext <;> simp [turn, V3.cross, toC, V3.smul] <;> ring
    · rcases hm with ⟨m1, m2⟩ | ⟨mu, mu', m1, m2, hmv⟩
      · exact Or.inl ⟨m2, m2⟩
      · refine Or.inr ⟨mu', mu', m2, m2, fun x G hG => ?_⟩
        refine colOp_frame (d := D) (d' := P'.data) rfl F (Equiv.refl ℕ) (fun _ => Iff.rfl) (fun _ => 1) (-1) hf hb (fun G hG v => ?_)
          (fun r hr u => hneg _ _) (fun G hG a => ?_) x hG
        · show t2c (P'.data.kpg (σ G)) _ _ = V3.smul 1 (turn (-1) (t2c (P.data.kpg G) _ _))
          rw [one3, C02_t2c, C02_t2c, show ((F.A G v).1, (F.A G v).2) = F.A G v from rfl, hFA, cart_ortho (hlink G hG)]
        · show c2t (P'.data.kpg (σ G)) _ _ = F.A G (c2t (P.data.kpg G) _ _)
          rw [one3, hFA]
          exact c2t_link (hlink G hG) _ _ _ _ _
  obtain ⟨-, U, hU, hmode⟩ := hsame
  refine ⟨rfl, conjX.trans U, fun X => ?_, fun lam X => ?_⟩
  · refine (hU (conjX X)).trans ?_
    refine Finset.sum_congr rfl fun a _ => ?_
    exact Complex.normSq_conj _
  · rw [isMode_conj (d := P.data) (φ := skewPhase n) he hm hφ, ← hD, hmode, one_mul]
    rfl

/-! ### The full statement fails -/

theorem homogeneous_only (P : Problem) (hmu : P.muInv = none) {e : ℝ} (he : ∀ r, P.epsInv r = ⟨e, e, e, 0, 0, 0⟩) {lam : ℝ} {X : ℕ → ℂ}
    (h : IsMode P.data lam X) : ∃ x < P.nx, ∃ y < P.ny, ∃ z < P.nz, lam = e * V3.dot (P.wave x y z) (P.wave x y z) := by
  have hn : 0 < P.data.nfb := by
    by_contra hc
    exact not_isMode _ (by omega) _ _ h
  obtain ⟨K, hK, hw⟩ := data_isBasis P
  rw [isMode_iff _ hn] at h
  obtain ⟨⟨G, hG, hX⟩, h2⟩ := h
  have h3 := h2 G hG
  rw [Target.homogeneous_maxwell (data_inverse P) hmu (fun r _ => he r) hK _ hG] at h3
  unfold bandMuinv at h3
  rw [show P.data.muInv = none from hmu] at h3
  dsimp only at h3
  obtain ⟨x, hx, y, hy, z, hz, rfl⟩ := index3 (nx := P.nx) (ny := P.ny) (nz := P.nz) hG
  refine ⟨x, hx, y, hy, z, hz, ?_⟩
  rw [hw x hx y hy z hz] at h3
  generalize band 1 X 0 ((x * P.ny + y) * P.nz + z) = v at h3 hX
  obtain ⟨c1, c2⟩ := Prod.mk.injEq .. ▸ h3
  by_contra hne
  apply hX
  have hne' : ((e * V3.dot (P.wave x y z) (P.wave x y z) : ℝ) : ℂ) - (lam : ℂ) ≠ 0 := by
    rw [← Complex.ofReal_sub]
    exact_mod_cast fun h0 => hne (by linarith)
  refine Prod.ext ?_ ?_
  · exact (mul_eq_zero.mp (by linear_combination c1 : (((e * V3.dot (P.wave x y z) (P.wave x y z) : ℝ) : ℂ) - (lam : ℂ)) * v.1 = 0)).resolve_left hne'
  · exact (mul_eq_zero.mp (by linear_combination c2 : (((e * V3.dot (P.wave x y z) (P.wave x y z) : ℝ) : ℂ) - (lam : ℂ)) * v.2 = 0)).resolve_left hne'

/-- Vacuum on `n` grid points along the first axis, with wavevector `k`. -/
noncomputable def vacuum (n : ℕ) (k : ℝ) : Problem := ⟨n, 1, 1, 1, M3.one, ⟨k, 0, 0⟩, fun _ => ⟨1, 1, 1, 0, 0, 0⟩, none⟩

theorem vacuum_wave (n : ℕ) (k : ℝ) (x : ℕ) : (vacuum n k).wave x 0 0 = ⟨k - harm n x, 0, 0⟩ := by
  have : Velocity.latticeGm (vacuum n k).Rm = M3.one := by
    show Velocity.latticeGm M3.one = _
    rw [latticeGm_eq]
    simp [M3.one, M3.det, V3.cross, V3.smul]
  unfold Problem.wave
  rw [this]
  ext <;> simp [waveVec, vacuum, M3.one, harm, sub_eq_add_neg]

theorem vacuum_modes (n : ℕ) (k lam : ℝ) : (∃ X, IsMode (vacuum n k).data lam X) ↔ ∃ x < n, lam = (k - harm n x) ^ 2 := by
  constructor
  · rintro ⟨X, h⟩
    obtain ⟨x, hx, y, hy, z, hz, e⟩ := homogeneous_only (vacuum n k) rfl (fun _ => rfl) h
    obtain rfl : y = 0 := Nat.lt_one_iff.mp hy
    obtain rfl : z = 0 := Nat.lt_one_iff.mp hz
    refine ⟨x, hx, ?_⟩
    rw [e, vacuum_wave]
    simp only [V3.dot]; ring
  · rintro ⟨x, hx, rfl⟩
    have := homogeneous_mode (vacuum n k) Nat.one_pos rfl (e := 1) (fun _ => rfl) (x := x) (y := 0) (z := 0) hx Nat.one_pos Nat.one_pos
    rw [vacuum_wave] at this
    refine ⟨_, (?_ : (1 : ℝ) * V3.dot _ _ = _) ▸ this⟩
    simp only [V3.dot]; ring

/-- C103, the full statement fails: in vacuum on two grid points the frequency 5/4 exists at `k = 1/4` but not at `-k`; the frequency 1/4 at
`k = 1/4` does not exist at `k + 1`, the same point of the Brillouin zone; and on three grid points (odd sizes, where the kept set is
lopsided) already the second frequency differs, 5/4 at `k` against 3/4 at `-k`. -/
theorem C103_full_refuted :
    ((∃ X, IsMode (vacuum 2 (1 / 4)).data ((5 / 4) ^ 2) X) ∧ ¬ ∃ X, IsMode (vacuum 2 (-(1 / 4))).data ((5 / 4) ^ 2) X) ∧
    ((∃ X, IsMode (vacuum 2 (1 / 4)).data ((1 / 4) ^ 2) X) ∧ ¬ ∃ X, IsMode (vacuum 2 (1 / 4 + 1)).data ((1 / 4) ^ 2) X) ∧
    (∀ lam, (∃ X, IsMode (vacuum 3 (1 / 4)).data lam X) ↔ lam = (1 / 4) ^ 2 ∨ lam = (5 / 4) ^ 2 ∨ lam = (9 / 4) ^ 2) ∧
    (∀ lam, (∃ X, IsMode (vacuum 3 (-(1 / 4))).data lam X) ↔ lam = (1 / 4) ^ 2 ∨ lam = (3 / 4) ^ 2 ∨ lam = (7 / 4) ^ 2) := by
  have two : ∀ p : ℕ → Prop, (∃ x < 2, p x) ↔ p 0 ∨ p 1 := by
    intro p
    constructor
    · rintro ⟨x, hx, h⟩
      interval_cases x
      · exact Or.inl h
      · exact Or.inr h
    · rintro (h | h)
      · exact ⟨0, by norm_num, h⟩
      · exact ⟨1, by norm_num, h⟩
  have three : ∀ p : ℕ → Prop, (∃ x < 3, p x) ↔ p 0 ∨ p 2 ∨ p 1 := by
    intro p
    constructor
    · rintro ⟨x, hx, h⟩
      interval_cases x
      · exact Or.inl h
      · exact Or.inr (Or.inr h)
      · exact Or.inr (Or.inl h)
    · rintro (h | h | h)
      · exact ⟨0, by norm_num, h⟩
      · exact ⟨2, by norm_num, h⟩
      · exact ⟨1, by norm_num, h⟩
  simp only [vacuum_modes, two, three]
  have e20 : harm 2 0 = 0 := rfl
  have e21 : harm 2 1 = -1 := rfl
  have e30 : harm 3 0 = 0 := rfl
  have e31 : harm 3 1 = -2 := rfl
  have e32 : harm 3 2 = -1 := rfl
  rw [e20, e21, e30, e31, e32]
  norm_num

/-- Non-vacuity: a magneto-optic layer (imaginary off-diagonal entry) next to a plain one, on a grid with an even, an odd and a trivial
direction, and the same with the field reversed, at `k = (1/4, 0, 0)` and `(-5/4, -2, 0)`. -/
example : Reversed ⟨-(1 / 4) - skew 4, -0 - skew 3, -0 - skew 1⟩
    ⟨4, 3, 1, 1, M3.one, ⟨1 / 4, 0, 0⟩, fun r => if r < 6 then ⟨2, 2, 2, Complex.I, 0, 0⟩ else ⟨3, 3, 3, 0, 0, 0⟩, none⟩
    ⟨4, 3, 1, 1, M3.one, ⟨-5 / 4, -2, 0⟩, fun r => if r < 6 then ⟨2, 2, 2, -Complex.I, 0, 0⟩ else ⟨3, 3, 3, 0, 0, 0⟩, none⟩ := by
  refine ⟨rfl, rfl, rfl, rfl, rfl, ?_, fun r _ => ?_, Or.inl ⟨rfl, rfl⟩⟩
  · simp [skew]; norm_num
  · unfold Conjugate
    ext i j
    dsimp only
    split_ifs <;> fin_cases i <;> fin_cases j <;> simp [Tensor.Spec.toMatrix, Complex.conj_ofNat]

end Mpb.Invariance

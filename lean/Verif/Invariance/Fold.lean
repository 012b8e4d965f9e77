import Verif.Invariance.FoldSpec
import Verif.Invariance.Slope
import Verif.Invariance.Rotate

/-! # Property C107: the bands of a supercell are the folded bands of the small cell -/

namespace Mpb.Invariance
open Mpb.Maxwell Mpb.Maxwell.Spec Spec

/-! ### One direction -/

/-- The number, in the large cell, of the harmonic number `b` of the small cell at the `r`-th folded wavevector. -/
def place1 (s n r b : ℕ) : ℕ := s * (((b : ℤ) - foldShift s n r) % n).toNat + r

/-- The harmonic of the small cell. -/
def unplace1 (s n x : ℕ) : ℕ := (((x / s : ℕ) : ℤ) + foldShift s n (x % s)) % n |>.toNat

theorem place1_lt {s n r b : ℕ} (hr : r < s) (hb : b < n) : place1 s n r b < s * n := by
  have h1 := Int.emod_nonneg ((b : ℤ) - foldShift s n r) (show (n : ℤ) ≠ 0 by omega)
  have h2 := Int.emod_lt_of_pos ((b : ℤ) - foldShift s n r) (show (0 : ℤ) < n by omega)
  unfold place1
  generalize hq : (((b : ℤ) - foldShift s n r) % n).toNat = q
  have : q + 1 ≤ n := by omega
  calc s * q + r < s * q + s := by omega
    _ = s * (q + 1) := by ring
    _ ≤ s * n := Nat.mul_le_mul_left _ this

theorem place1_mod {s n r b : ℕ} (hr : r < s) : place1 s n r b % s = r := by
  unfold place1
  rw [Nat.mul_add_mod, Nat.mod_eq_of_lt hr]

theorem place1_div {s n r b : ℕ} (hr : r < s) : place1 s n r b / s = (((b : ℤ) - foldShift s n r) % n).toNat := by
  unfold place1
  rw [Nat.mul_add_div (by omega), Nat.div_eq_of_lt hr, add_zero]

theorem unplace1_place1 {s n r b : ℕ} (hr : r < s) (hb : b < n) : unplace1 s n (place1 s n r b) = b := by
  unfold unplace1
  rw [place1_mod hr, place1_div hr, Int.toNat_of_nonneg (Int.emod_nonneg _ (by omega)), Int.emod_add_emod, sub_add_cancel,
    Int.emod_eq_of_lt (by omega) (by omega)]
  simp

theorem unplace1_lt {s n x : ℕ} (hn : 0 < n) : unplace1 s n x < n := by
  unfold unplace1
  have h1 := Int.emod_nonneg (((x / s : ℕ) : ℤ) + foldShift s n (x % s)) (show (n : ℤ) ≠ 0 by omega)
  have h2 := Int.emod_lt_of_pos (((x / s : ℕ) : ℤ) + foldShift s n (x % s)) (show (0 : ℤ) < n by omega)
  omega

theorem place1_unplace1 {s n x : ℕ} (hx : x < s * n) : place1 s n (x % s) (unplace1 s n x) = x := by
  have hn : 0 < n := by
    rcases Nat.eq_zero_or_pos n with rfl | h
    · simp at hx
    · exact h
  have hq : x / s < n := Nat.div_lt_of_lt_mul hx
  unfold place1 unplace1
  rw [Int.toNat_of_nonneg (Int.emod_nonneg _ (by omega)), Int.emod_sub_emod, add_sub_cancel_right, Int.emod_eq_of_lt (Int.natCast_nonneg _) (by exact_mod_cast hq)]
  simp only [Int.toNat_natCast]
  exact Nat.div_add_mod x s

theorem harm_range {n x : ℕ} (hx : x < n) : ((max 1 (n / 2) : ℕ) : ℤ) - n ≤ harm n x ∧ harm n x ≤ ((max 1 (n / 2) : ℕ) : ℤ) - 1 ∧
    (n : ℤ) ∣ harm n x - x := by
  have hm : max 1 (n / 2) ≤ n := by omega
  unfold harm
  generalize max 1 (n / 2) = m at *
  split_ifs with h
  · exact ⟨by omega, by omega, ⟨-1, by ring⟩⟩
  · exact ⟨by omega, by omega, ⟨0, by ring⟩⟩

/-- The harmonic is the number in the balanced range with the right remainder. -/
theorem harm_unique {n x : ℕ} (hx : x < n) {h : ℤ} (h1 : ((max 1 (n / 2) : ℕ) : ℤ) - n ≤ h) (h2 : h ≤ ((max 1 (n / 2) : ℕ) : ℤ) - 1)
    (hd : (n : ℤ) ∣ h - x) : harm n x = h := by
  obtain ⟨r1, r2, r3⟩ := harm_range hx
  have h3 : (n : ℤ) ∣ harm n x - h := by
    have := dvd_sub r3 hd
    rwa [sub_sub_sub_cancel_right] at this
  have := Int.eq_zero_of_abs_lt_dvd h3 (by rw [abs_lt]; omega)
  omega

theorem half_mul (s e : ℕ) : s * (2 * e) / 2 = s * e ∧ s * (2 * e + 1) / 2 = s * e + s / 2 := by
  have h1 : s * (2 * e) = 2 * (s * e) := by ring
  have h2 : s * (2 * e + 1) = 2 * (s * e) + s := by ring
  rw [h1, h2]
  omega

/-- The balanced range of the large cell, seen from the small one. -/
theorem fold_bounds {s n r : ℕ} (hr : r < s) (hn : 0 < n) :
    ((max 1 (s * n / 2) : ℕ) : ℤ) ≤ s * (((max 1 (n / 2) : ℕ) : ℤ) - foldShift s n r) + r ∧
    (s : ℤ) * (((max 1 (n / 2) : ℕ) : ℤ) - 1 - foldShift s n r) + r ≤ ((max 1 (s * n / 2) : ℕ) : ℤ) - 1 := by
  unfold foldShift
  rcases Nat.even_or_odd' n with ⟨e, rfl | rfl⟩
  · rw [(half_mul s e).1, if_pos (by omega), show 2 * e / 2 = e by omega]
    have h1 : s ≤ s * e := Nat.le_mul_of_pos_right _ (by omega)
    rw [max_eq_right (show 1 ≤ e by omega), max_eq_right (show 1 ≤ s * e by omega)]
    push_cast
    constructor <;> nlinarith
  · rw [(half_mul s e).2, if_neg (by omega), show (2 * e + 1) / 2 = e by omega]
    rcases Nat.eq_zero_or_pos e with rfl | he
    · simp only [mul_zero, zero_add, if_true]
      have hm : max 1 (s / 2) ≤ s := by omega
      generalize max 1 (s / 2) = m at *
      rw [show max 1 0 = 1 from rfl]
      split_ifs with h <;> push_cast <;> constructor <;> ring_nf <;> omega
    · rw [if_neg (by omega)]
      have h1 : s ≤ s * e := Nat.le_mul_of_pos_right _ (by omega)
      rw [max_eq_right (show 1 ≤ e by omega), max_eq_right (show 1 ≤ s * e + s / 2 by omega)]
      generalize hh : s / 2 = h2
      have : h2 * 2 ≤ s := by omega
      push_cast
      split_ifs with h <;> constructor <;> nlinarith

theorem harm_place1 {s n r b : ℕ} (hr : r < s) (hb : b < n) :
    harm (s * n) (place1 s n r b) = s * (harm n b - foldShift s n r) + r := by
  obtain ⟨r1, r2, ⟨c, r3⟩⟩ := harm_range hb
  obtain ⟨b1, b2⟩ := fold_bounds (n := n) hr (by omega)
  refine harm_unique (place1_lt hr hb) ?_ ?_ ?_
  · generalize foldShift s n r = f at *
    generalize ((max 1 (n / 2) : ℕ) : ℤ) = m at *
    generalize ((max 1 (s * n / 2) : ℕ) : ℤ) = m' at *
    push_cast
    nlinarith [mul_le_mul_of_nonneg_left r1 (Int.natCast_nonneg s)]
  · generalize foldShift s n r = f at *
    generalize ((max 1 (n / 2) : ℕ) : ℤ) = m at *
    generalize ((max 1 (s * n / 2) : ℕ) : ℤ) = m' at *
    nlinarith [mul_le_mul_of_nonneg_left r2 (Int.natCast_nonneg s)]
  · unfold place1
    push_cast
    rw [Int.toNat_of_nonneg (Int.emod_nonneg _ (by omega))]
    have := Int.emod_add_mul_ediv ((b : ℤ) - foldShift s n r) n
    refine ⟨c + ((b : ℤ) - foldShift s n r) / n, ?_⟩
    have e : harm n b = b + n * c := by omega
    rw [e, show ((b : ℤ) - foldShift s n r) % n = (b : ℤ) - foldShift s n r - n * (((b : ℤ) - foldShift s n r) / n) by omega]
    ring

theorem chi_mul {s n : ℕ} (hs : 0 < s) (j : ℤ) : chi (s * n) (s * j) = chi n j := by
  unfold chi
  have : (s : ℝ) ≠ 0 := by exact_mod_cast hs.ne'
  congr 4
  push_cast
  rw [mul_div_mul_left _ _ this]

/-- The phase of the `r`-th part at the point `x` of the large cell. -/
noncomputable def phase1 (s n r x : ℕ) : ℂ := chi n (x * foldShift s n r) * chi (s * n) (-(x * r))

theorem chi_place1 {s n r b : ℕ} (hr : r < s) (hb : b < n) (x : ℕ) :
    chi (s * n) (-(x * place1 s n r b)) = phase1 s n r x * chi n (-((x % n : ℕ) * b)) := by
  unfold place1 phase1
  have hn : 0 < n := by omega
  push_cast
  rw [Int.toNat_of_nonneg (Int.emod_nonneg _ (by omega)),
    show -((x : ℤ) * (s * (((b : ℤ) - foldShift s n r) % n) + r)) = s * (-(x * (((b : ℤ) - foldShift s n r) % n))) + -(x * r) by ring,
    chi_add, chi_mul (by omega)]
  have : chi n (-(x * (((b : ℤ) - foldShift s n r) % n))) = chi n (x * foldShift s n r) * chi n (-((x % n : ℕ) * b)) := by
    rw [← chi_add]
    refine chi_congr hn ⟨(x : ℤ) * (((b : ℤ) - foldShift s n r) / n) - ((x / n : ℕ) : ℤ) * b, ?_⟩
    have e1 := Int.emod_add_mul_ediv ((b : ℤ) - foldShift s n r) n
    have e2 : (x : ℤ) = n * (x / n : ℕ) + (x % n : ℕ) := by exact_mod_cast (Nat.div_add_mod x n).symm
    rw [show ((b : ℤ) - foldShift s n r) % n = (b : ℤ) - foldShift s n r - n * (((b : ℤ) - foldShift s n r) / n) by omega,
      show ((x % n : ℕ) : ℤ) = x - n * (x / n : ℕ) by omega]
    ring
  rw [this]
  push_cast
  ring

/-! ### Sums of vectors -/

/-- A finite sum of vectors. -/
noncomputable def sum3 {ι : Type} (R : Finset ι) (f : ι → V3 ℂ) : V3 ℂ := ⟨∑ r ∈ R, (f r).x, ∑ r ∈ R, (f r).y, ∑ r ∈ R, (f r).z⟩

theorem sum3_congr {ι : Type} {R : Finset ι} {f g : ι → V3 ℂ} (h : ∀ r ∈ R, f r = g r) : sum3 R f = sum3 R g := by
  ext <;> exact Finset.sum_congr rfl fun r hr => by rw [h r hr]

theorem mulVec_sum3 {ι : Type} (e : HMat) (R : Finset ι) (f : ι → V3 ℂ) : e.mulVec (sum3 R f) = sum3 R fun r => e.mulVec (f r) := by
  classical
  induction R using Finset.induction_on with
  | empty => ext <;> apply Complex.ext <;> simp [sum3, HMat.mulVec]
  | insert a R ha ih =>
    have h : ∀ g : ι → V3 ℂ, sum3 (insert a R) g = V3.smul 1 (g a) + V3.smul 1 (sum3 R g) := by
      intro g
      ext <;> simp [sum3, Finset.sum_insert ha, V3.smul]
    rw [h, mulVec_lin, ih, h]

/-! ### Splitting the planewaves of a large problem into those of several small ones -/

/-- The numbers below `N'` are the pairs of a class in `R` and a number below `N`. -/
structure Split {ι : Type} (R : Finset ι) (N N' : ℕ) where
  place : ι → ℕ → ℕ
  cls : ℕ → ι
  idx : ℕ → ℕ
  lt : ∀ r ∈ R, ∀ G < N, place r G < N'
  cls_place : ∀ r ∈ R, ∀ G < N, cls (place r G) = r
  idx_place : ∀ r ∈ R, ∀ G < N, idx (place r G) = G
  cls_mem : ∀ G' < N', cls G' ∈ R
  idx_lt : ∀ G' < N', idx G' < N
  place_back : ∀ G' < N', place (cls G') (idx G') = G'

theorem Split.sum {ι : Type} {R : Finset ι} {N N' : ℕ} (S : Split R N N') {M : Type} [AddCommMonoid M] (f : ℕ → M) :
    ∑ G' ∈ Finset.range N', f G' = ∑ r ∈ R, ∑ G ∈ Finset.range N, f (S.place r G) := by
  rw [← Finset.sum_product']
  refine (Finset.sum_nbij' (fun p => S.place p.1 p.2) (fun G' => (S.cls G', S.idx G')) ?_ ?_ ?_ ?_ ?_).symm
  · rintro ⟨r, G⟩ h
    rw [Finset.mem_product, Finset.mem_range] at h
    exact Finset.mem_range.2 (S.lt r h.1 G h.2)
  · intro G' h
    rw [Finset.mem_range] at h
    exact Finset.mem_product.2 ⟨S.cls_mem G' h, Finset.mem_range.2 (S.idx_lt G' h)⟩
  · rintro ⟨r, G⟩ h
    rw [Finset.mem_product, Finset.mem_range] at h
    exact Prod.ext (S.cls_place r h.1 G h.2) (S.idx_place r h.1 G h.2)
  · intro G' h
    exact S.place_back G' (Finset.mem_range.1 h)
  · rintro ⟨r, G⟩ _
    rfl

/-- The whole chain of the large problem in terms of those of the parts. -/
theorem split_colOp {ι : Type} {R : Finset ι} {P' : Problem} {Q : ι → Problem} {N : ℕ} (hQ : ∀ r ∈ R, (Q r).data.N = N) (S : Split R N P'.data.N)
    {ex : KData → ℂ → ℂ → V3 ℂ} {co : KData → V3 ℂ → ℝ → ℂ × ℂ} {M M' : ℕ → HMat} {s s' : ℝ}
    (hs : s' * P'.data.N = s * N) (hco : ∀ k (c : ℝ) a t, co k (V3.smul (c : ℂ) a) t = co k a (c * t))
    {m : ℕ → ℕ} {ph : ι → ℕ → ℂ} (hm : ∀ X < P'.data.N, m X < N)
    (hW : ∀ r ∈ R, ∀ X < P'.data.N, ∀ G < N, P'.data.Wf X (S.place r G) = ph r X * (Q r).data.Wf (m X) G)
    (hM : ∀ X < P'.data.N, M' X = M (m X))
    (hk : ∀ r ∈ R, ∀ G < N, P'.data.kpg (S.place r G) = (Q r).data.kpg G)
    (x : ℕ → ℂ × ℂ) {r : ι} (hr : r ∈ R) {G : ℕ} (hG : G < N) :
    colOp ex co P'.data M' s' x (S.place r G) = colOp ex co (Q r).data M s (fun G => x (S.place r G)) G := by
  have hN : (N : ℂ) ≠ 0 := by exact_mod_cast (show N ≠ 0 by omega)
  unfold colOp
  set e' : ℕ → V3 ℂ := fun G => ex (P'.data.kpg G) (x G).1 (x G).2 with he'
  -- the position-space fields of the parts after multiplication
  set g : ι → ℕ → V3 ℂ := fun r X => (M X).mulVec (transform (Q r).data.Wf N (fun G => e' (S.place r G)) X) with hg
  set u : ι → ℕ → V3 ℂ := fun r G => V3.smul ((N : ℂ)⁻¹) (transform (Q r).data.Wb N (g r) G) with hu
  have hback : ∀ r ∈ R, ∀ X < N, transform (Q r).data.Wf N (u r) X = g r X := by
    intro r hr X hX
    have h := transform_back (Q r) (g r) (r := X) (by rw [hQ r hr]; exact hX)
    rw [hQ r hr] at h
    have h2 := transform_smul (Q r).data.Wf N ((N : ℂ)⁻¹) (transform (Q r).data.Wb N (g r)) X
    rw [hu]
    dsimp only
    rw [h2, h, smul_smul3, inv_mul_cancel₀ hN]
    ext <;> simp [V3.smul]
  have h1 : ∀ X < P'.data.N, (M' X).mulVec (transform P'.data.Wf P'.data.N e' X) =
      transform P'.data.Wf P'.data.N (fun G' => u (S.cls G') (S.idx G')) X := by
    intro X hX
    have key : ∀ (v : ℕ → V3 ℂ), transform P'.data.Wf P'.data.N v X =
        sum3 R fun r => V3.smul (ph r X) (transform (Q r).data.Wf N (fun G => v (S.place r G)) (m X)) := by
      intro v
      have key : ∀ f : V3 ℂ → ℂ, ∑ j ∈ Finset.range P'.data.N, P'.data.Wf X j * f (v j) =
          ∑ r ∈ R, ph r X * ∑ j ∈ Finset.range N, (Q r).data.Wf (m X) j * f (v (S.place r j)) := by
        intro f
        rw [S.sum]
        refine Finset.sum_congr rfl fun r hr => ?_
        rw [Finset.mul_sum]
        refine Finset.sum_congr rfl fun G hG => ?_
        rw [hW r hr X hX G (Finset.mem_range.1 hG)]
        ring
      ext
      · exact key V3.x
      · exact key V3.y
      · exact key V3.z
    rw [key, key, mulVec_sum3]
    refine sum3_congr fun r hr => ?_
    rw [mulVec_smul, hM X hX, transform_congr (a := fun G => u (S.cls (S.place r G)) (S.idx (S.place r G))) (b := u r) (fun j hj => by rw [S.cls_place r hr j hj, S.idx_place r hr j hj]), hback r hr _ (hm X hX)]
  rw [transform_congr h1, Target.transform_inverse (data_inverse P') _ (S.lt r hr G hG), S.cls_place r hr G hG, S.idx_place r hr G hG, hk r hr G hG, hQ r hr]
  have h2 : transform (Q r).data.Wf N (fun G => ex ((Q r).data.kpg G) (x (S.place r G)).1 (x (S.place r G)).2) =
      transform (Q r).data.Wf N (fun G => e' (S.place r G)) := by
    funext X
    refine transform_congr (fun j hj => ?_) X
    rw [he']
    dsimp only
    rw [hk r hr j hj]
  rw [h2]
  show co _ (V3.smul _ (V3.smul _ (transform (Q r).data.Wb N (g r) G))) s' = co _ (transform (Q r).data.Wb N (g r) G) s
  rw [smul_smul3, show (P'.data.N : ℂ) * (N : ℂ)⁻¹ = (((P'.data.N : ℝ) * (N : ℝ)⁻¹ : ℝ) : ℂ) by push_cast; rfl, hco]
  congr 1
  have : (N : ℝ) ≠ 0 := by exact_mod_cast (show N ≠ 0 by omega)
  field_simp
  linarith

theorem zero_iff (N : ℕ) (X : ℕ → ℂ) : (∀ a < N * 2, X a = 0) ↔ ∀ G < N, band 1 X 0 G = (0, 0) := by
  constructor
  · intro h G hG
    rw [band1, h _ (by omega), h _ (by omega)]
  · intro h a ha
    have := h (a / 2) (by omega)
    rw [band1, Prod.mk.injEq] at this
    rcases Nat.mod_two_eq_zero_or_one a with hm | hm
    · have e : a / 2 * 2 = a := by omega
      rw [← e]; exact this.1
    · have e : a / 2 * 2 + 1 = a := by omega
      rw [← e]; exact this.2

theorem transform_zero {W : ℕ → ℕ → ℂ} {N : ℕ} {u : ℕ → V3 ℂ} (h : ∀ j < N, u j = 0) (r : ℕ) : transform W N u r = 0 := by
  rw [transform_congr (b := fun _ => 0) h]
  ext <;> simp [transform]

theorem bandOp_zero (d : OpData) {x : ℕ → ℂ × ℂ} (h : ∀ G < d.N, x G = (0, 0)) (G : ℕ) : bandOp d x G = (0, 0) := by
  unfold bandOp colOp
  rw [transform_zero]
  · refine Prod.ext ?_ ?_ <;> apply Complex.ext <;> simp [crossC2t]
  · intro j hj
    rw [transform_zero fun i hi => ?_]
    · ext <;> apply Complex.ext <;> simp [HMat.mulVec]
    · rw [h i hi]
      ext <;> apply Complex.ext <;> simp [crossT2c]

theorem bandMu_zero (d : OpData) (mu : ℕ → HMat) {x : ℕ → ℂ × ℂ} (h : ∀ G < d.N, x G = (0, 0)) (G : ℕ) : bandMu d mu x G = (0, 0) := by
  unfold bandMu colOp
  rw [transform_zero]
  · refine Prod.ext ?_ ?_ <;> apply Complex.ext <;> simp [c2t]
  · intro j hj
    rw [transform_zero fun i hi => ?_]
    · ext <;> apply Complex.ext <;> simp [HMat.mulVec]
    · rw [h i hi]
      ext <;> apply Complex.ext <;> simp [t2c]

theorem bandMaxwell_zero (d : OpData) {x : ℕ → ℂ × ℂ} (h : ∀ G < d.N, x G = (0, 0)) {G : ℕ} (hG : G < d.N) : bandMaxwell d x G = (0, 0) ∧ bandMuinv d x G = (0, 0) := by
  unfold bandMaxwell bandMuinv
  cases d.muInv with
  | none => exact ⟨bandOp_zero d h G, h G hG⟩
  | some mu => exact ⟨bandMu_zero d mu (fun _ _ => bandOp_zero d (fun _ _ => bandMu_zero d mu h _) _) G, bandMu_zero d mu h G⟩

/-- The part of a field that belongs to a class. -/
def Split.part {ι : Type} {R : Finset ι} {N N' : ℕ} (S : Split R N N') (r : ι) : (ℕ → ℂ) →ₗ[ℂ] (ℕ → ℂ) :=
  (pairs.symm : (ℕ → ℂ × ℂ) →ₗ[ℂ] (ℕ → ℂ)) ∘ₗ LinearMap.funLeft ℂ (ℂ × ℂ) (S.place r) ∘ₗ (pairs : (ℕ → ℂ) →ₗ[ℂ] (ℕ → ℂ × ℂ))

theorem Split.band_part {ι : Type} {R : Finset ι} {N N' : ℕ} (S : Split R N N') (r : ι) (X : ℕ → ℂ) :
    band 1 (S.part r X) 0 = fun G => band 1 X 0 (S.place r G) := by
  rw [band_pairs, band_pairs]
  unfold Split.part
  simp only [LinearMap.comp_apply, LinearEquiv.coe_coe, LinearEquiv.apply_symm_apply]
  rfl

theorem Split.forall_iff {ι : Type} {R : Finset ι} {N N' : ℕ} (S : Split R N N') (p : ℕ → Prop) :
    (∀ G' < N', p G') ↔ ∀ r ∈ R, ∀ G < N, p (S.place r G) := by
  constructor
  · exact fun h r hr G hG => h _ (S.lt r hr G hG)
  · intro h G' hG'
    have := h _ (S.cls_mem G' hG') _ (S.idx_lt G' hG')
    rwa [S.place_back G' hG'] at this

/-- If the operators of the large problem act on each class as those of the small problems, the modes split. -/
theorem split_modes {R : Finset (ℕ × ℕ × ℕ)} {N : ℕ} {d' : OpData} {d : ℕ × ℕ × ℕ → OpData} (hN : ∀ r ∈ R, (d r).N = N)
    (hn : ∀ r ∈ R, (d r).nfb = d'.nfb) (S : Split R N d'.N)
    (h1 : ∀ x, ∀ r ∈ R, ∀ G < N, bandMaxwell d' x (S.place r G) = bandMaxwell (d r) (fun G => x (S.place r G)) G)
    (h2 : ∀ x, ∀ r ∈ R, ∀ G < N, bandMuinv d' x (S.place r G) = bandMuinv (d r) (fun G => x (S.place r G)) G) :
    FoldedModes R d N d' := by
  refine ⟨S.part, fun X => ?_, fun Y => ?_, fun lam X => ?_⟩
  · rw [sum_pairs, S.sum]
    refine Finset.sum_congr rfl fun r _ => ?_
    rw [sum_pairs, S.band_part]
  · refine ⟨pairs.symm fun G' => pairs (Y (S.cls G')) (S.idx G'), fun r hr a ha => ?_⟩
    have h := (zero_iff N (fun a => S.part r (pairs.symm fun G' => pairs (Y (S.cls G')) (S.idx G')) a - Y r a)).2 ?_ a ha
    · exact sub_eq_zero.1 h
    · intro G hG
      have e := congrFun (S.band_part r (pairs.symm fun G' => pairs (Y (S.cls G')) (S.idx G'))) G
      rw [band_pairs (pairs.symm _), LinearEquiv.apply_symm_apply, S.cls_place r hr G hG, S.idx_place r hr G hG, band1, ← band_pairs, band1, Prod.mk.injEq] at e
      rw [band1, e.1, e.2, sub_self, sub_self]
  · have hz : (∃ a < d'.N * 2, X a ≠ 0) ↔ ∃ r ∈ R, ∃ a < N * 2, S.part r X a ≠ 0 := by
      have : (∀ a < d'.N * 2, X a = 0) ↔ ∀ r ∈ R, ∀ a < N * 2, S.part r X a = 0 := by
        rw [zero_iff, S.forall_iff]
        refine forall_congr' fun r => imp_congr_right fun _ => ?_
        rw [zero_iff, S.band_part]
      rw [← not_iff_not]
      push Not
      exact this
    rcases Nat.eq_zero_or_pos d'.nfb with h0 | hpos
    · refine iff_of_false (not_isMode _ h0 _ _) fun ⟨⟨r, hr, a, ha, hne⟩, h⟩ => ?_
      rcases h r hr with h | h
      · exact hne (h a ha)
      · exact not_isMode _ ((hn r hr).trans h0) _ _ h
    rw [isMode_iff _ hpos, ← hz]
    have hz' : (∃ G < d'.N, band 1 X 0 G ≠ (0, 0)) ↔ ∃ a < d'.N * 2, X a ≠ 0 := by
      rw [← not_iff_not]
      push Not
      exact (zero_iff _ _).symm
    rw [hz', S.forall_iff]
    refine and_congr_right fun _ => forall_congr' fun r => imp_congr_right fun hr => ?_
    have hm : IsMode (d r) lam (S.part r X) ↔ (∃ a < N * 2, S.part r X a ≠ 0) ∧ ∀ G < N, bandMaxwell (d r) (fun G => band 1 X 0 (S.place r G)) G =
        ((lam : ℂ) * (bandMuinv (d r) (fun G => band 1 X 0 (S.place r G)) G).1, (lam : ℂ) * (bandMuinv (d r) (fun G => band 1 X 0 (S.place r G)) G).2) := by
      rw [isMode_iff _ (by rw [hn r hr]; exact hpos), hN r hr, S.band_part]
      refine and_congr_left fun _ => ?_
      rw [← not_iff_not]
      push Not
      rw [zero_iff, S.band_part]
    rw [hm]
    constructor
    · intro h
      by_cases hp : ∀ a < N * 2, S.part r X a = 0
      · exact Or.inl hp
      · push Not at hp
        refine Or.inr ⟨hp, fun G hG => ?_⟩
        rw [← h1 _ r hr G hG, ← h2 _ r hr G hG]
        exact h G hG
    · rintro (h | h) G hG
      · rw [zero_iff, S.band_part] at h
        obtain ⟨e1, e2⟩ := bandMaxwell_zero (d r) (x := fun G => band 1 X 0 (S.place r G)) (by rw [hN r hr]; exact h) (G := G) (by rw [hN r hr]; exact hG)
        rw [h1 _ r hr G hG, h2 _ r hr G hG, e1, e2]
        simp
      · rw [h1 _ r hr G hG, h2 _ r hr G hG]
        exact h.2 G hG

/-! ### The splitting of a supercell -/

/-- The planewaves of a supercell. -/
def foldSplit (s n : V3 ℕ) : Split (folds s) (n.x * n.y * n.z) (s.x * n.x * (s.y * n.y) * (s.z * n.z)) where
  place r G := cell ⟨s.x * n.x, s.y * n.y, s.z * n.z⟩ (place1 s.x n.x r.1 (coords n G).1, place1 s.y n.y r.2.1 (coords n G).2.1, place1 s.z n.z r.2.2 (coords n G).2.2)
  cls G' := ((coords ⟨s.x * n.x, s.y * n.y, s.z * n.z⟩ G').1 % s.x, (coords ⟨s.x * n.x, s.y * n.y, s.z * n.z⟩ G').2.1 % s.y,
    (coords ⟨s.x * n.x, s.y * n.y, s.z * n.z⟩ G').2.2 % s.z)
  idx G' := cell n (unplace1 s.x n.x (coords ⟨s.x * n.x, s.y * n.y, s.z * n.z⟩ G').1, unplace1 s.y n.y (coords ⟨s.x * n.x, s.y * n.y, s.z * n.z⟩ G').2.1,
    unplace1 s.z n.z (coords ⟨s.x * n.x, s.y * n.y, s.z * n.z⟩ G').2.2)
  lt r hr G hG := by
    simp only [folds, Finset.mem_product, Finset.mem_range] at hr
    obtain ⟨⟨b1, b2, b3⟩, -⟩ := box_coords hG
    exact cell_lt (n := ⟨s.x * n.x, s.y * n.y, s.z * n.z⟩) ⟨place1_lt hr.1 b1, place1_lt hr.2.1 b2, place1_lt hr.2.2 b3⟩
  cls_place r hr G hG := by
    simp only [folds, Finset.mem_product, Finset.mem_range] at hr
    obtain ⟨⟨b1, b2, b3⟩, -⟩ := box_coords hG
    rw [coords_cell (n := ⟨s.x * n.x, s.y * n.y, s.z * n.z⟩) ⟨place1_lt hr.1 b1, place1_lt hr.2.1 b2, place1_lt hr.2.2 b3⟩]
    simp only [place1_mod hr.1, place1_mod hr.2.1, place1_mod hr.2.2]
  idx_place r hr G hG := by
    simp only [folds, Finset.mem_product, Finset.mem_range] at hr
    obtain ⟨⟨b1, b2, b3⟩, hc⟩ := box_coords hG
    rw [coords_cell (n := ⟨s.x * n.x, s.y * n.y, s.z * n.z⟩) ⟨place1_lt hr.1 b1, place1_lt hr.2.1 b2, place1_lt hr.2.2 b3⟩]
    simp only [unplace1_place1 hr.1 b1, unplace1_place1 hr.2.1 b2, unplace1_place1 hr.2.2 b3]
    exact hc
  cls_mem G' hG' := by
    obtain ⟨⟨b1, b2, b3⟩, -⟩ := box_coords (n := ⟨s.x * n.x, s.y * n.y, s.z * n.z⟩) hG'
    simp only [folds, Finset.mem_product, Finset.mem_range]
    have key : ∀ {a b c : ℕ}, a < b * c → 0 < b := fun {a b c} h => Nat.pos_of_ne_zero fun h0 => by simp [h0] at h
    exact ⟨Nat.mod_lt _ (key b1), Nat.mod_lt _ (key b2), Nat.mod_lt _ (key b3)⟩
  idx_lt G' hG' := by
    obtain ⟨⟨b1, b2, b3⟩, -⟩ := box_coords (n := ⟨s.x * n.x, s.y * n.y, s.z * n.z⟩) hG'
    have key : ∀ {a b c : ℕ}, a < b * c → 0 < c := fun {a b c} h => Nat.pos_of_ne_zero fun h0 => by simp [h0] at h
    exact cell_lt ⟨unplace1_lt (key b1), unplace1_lt (key b2), unplace1_lt (key b3)⟩
  place_back G' hG' := by
    obtain ⟨⟨b1, b2, b3⟩, hc⟩ := box_coords (n := ⟨s.x * n.x, s.y * n.y, s.z * n.z⟩) hG'
    have key : ∀ {a b c : ℕ}, a < b * c → 0 < c := fun {a b c} h => Nat.pos_of_ne_zero fun h0 => by simp [h0] at h
    rw [coords_cell (n := n) ⟨unplace1_lt (key b1), unplace1_lt (key b2), unplace1_lt (key b3)⟩]
    simp only [place1_unplace1 b1, place1_unplace1 b2, place1_unplace1 b3]
    exact hc

/-- The point of the small cell at a point of the large one. -/
def foldPoint (s n : V3 ℕ) (X : ℕ) : ℕ :=
  cell n ((coords ⟨s.x * n.x, s.y * n.y, s.z * n.z⟩ X).1 % n.x, (coords ⟨s.x * n.x, s.y * n.y, s.z * n.z⟩ X).2.1 % n.y,
    (coords ⟨s.x * n.x, s.y * n.y, s.z * n.z⟩ X).2.2 % n.z)

/-- The phase of a part at a point of the large cell. -/
noncomputable def foldPhase (s n : V3 ℕ) (r : ℕ × ℕ × ℕ) (X : ℕ) : ℂ :=
  phase1 s.x n.x r.1 (coords ⟨s.x * n.x, s.y * n.y, s.z * n.z⟩ X).1 * phase1 s.y n.y r.2.1 (coords ⟨s.x * n.x, s.y * n.y, s.z * n.z⟩ X).2.1 *
    phase1 s.z n.z r.2.2 (coords ⟨s.x * n.x, s.y * n.y, s.z * n.z⟩ X).2.2

theorem foldPoint_lt {s n : V3 ℕ} {X : ℕ} (hX : X < s.x * n.x * (s.y * n.y) * (s.z * n.z)) : foldPoint s n X < n.x * n.y * n.z ∧
    Box n ((coords ⟨s.x * n.x, s.y * n.y, s.z * n.z⟩ X).1 % n.x, (coords ⟨s.x * n.x, s.y * n.y, s.z * n.z⟩ X).2.1 % n.y,
      (coords ⟨s.x * n.x, s.y * n.y, s.z * n.z⟩ X).2.2 % n.z) := by
  obtain ⟨⟨b1, b2, b3⟩, -⟩ := box_coords (n := ⟨s.x * n.x, s.y * n.y, s.z * n.z⟩) hX
  have key : ∀ {a b c : ℕ}, a < b * c → 0 < c := fun {a b c} h => Nat.pos_of_ne_zero fun h0 => by simp [h0] at h
  have hb : Box n ((coords ⟨s.x * n.x, s.y * n.y, s.z * n.z⟩ X).1 % n.x, (coords ⟨s.x * n.x, s.y * n.y, s.z * n.z⟩ X).2.1 % n.y,
      (coords ⟨s.x * n.x, s.y * n.y, s.z * n.z⟩ X).2.2 % n.z) := ⟨Nat.mod_lt _ (key b1), Nat.mod_lt _ (key b2), Nat.mod_lt _ (key b3)⟩
  exact ⟨cell_lt hb, hb⟩

theorem dft_fold {s n : V3 ℕ} {r : ℕ × ℕ × ℕ} (hr : r ∈ folds s) {X : ℕ} (hX : X < s.x * n.x * (s.y * n.y) * (s.z * n.z)) {G : ℕ} (hG : G < n.x * n.y * n.z) :
    dft (-1) (s.x * n.x) (s.y * n.y) (s.z * n.z) X ((foldSplit s n).place r G) = foldPhase s n r X * dft (-1) n.x n.y n.z (foldPoint s n X) G := by
  simp only [folds, Finset.mem_product, Finset.mem_range] at hr
  obtain ⟨hb, hc⟩ := box_coords (n := ⟨s.x * n.x, s.y * n.y, s.z * n.z⟩) hX
  obtain ⟨hb', hc'⟩ := box_coords hG
  obtain ⟨hp, hpb⟩ := foldPoint_lt hX
  have e1 := dft_neg_cell hb (t := (place1 s.x n.x r.1 (coords n G).1, place1 s.y n.y r.2.1 (coords n G).2.1, place1 s.z n.z r.2.2 (coords n G).2.2))
    ⟨place1_lt hr.1 hb'.1, place1_lt hr.2.1 hb'.2.1, place1_lt hr.2.2 hb'.2.2⟩
  have e2 := dft_neg_cell hpb hb'
  rw [hc] at e1
  rw [hc'] at e2
  unfold foldPoint
  rw [e2]
  refine e1.trans ?_
  unfold foldPhase
  dsimp only
  rw [chi_place1 hr.1 hb'.1, chi_place1 hr.2.1 hb'.2.1, chi_place1 hr.2.2 hb'.2.2]
  ring

/-- The reciprocal vectors of the large cell. -/
theorem latticeGm_super {s : V3 ℕ} (hx : 0 < s.x) (hy : 0 < s.y) (hz : 0 < s.z) (R : M3 ℝ) :
    Velocity.latticeGm ⟨V3.smul (s.x : ℝ) R.c0, V3.smul (s.y : ℝ) R.c1, V3.smul (s.z : ℝ) R.c2⟩ =
      ⟨V3.smul (1 / (s.x : ℝ)) (Velocity.latticeGm R).c0, V3.smul (1 / (s.y : ℝ)) (Velocity.latticeGm R).c1, V3.smul (1 / (s.z : ℝ)) (Velocity.latticeGm R).c2⟩ := by
  have hx' : (s.x : ℝ) ≠ 0 := by exact_mod_cast hx.ne'
  have hy' : (s.y : ℝ) ≠ 0 := by exact_mod_cast hy.ne'
  have hz' : (s.z : ℝ) ≠ 0 := by exact_mod_cast hz.ne'
  have hd : M3.det (⟨V3.smul (s.x : ℝ) R.c0, V3.smul (s.y : ℝ) R.c1, V3.smul (s.z : ℝ) R.c2⟩ : M3 ℝ) = s.x * s.y * s.z * M3.det R := by
    simp only [M3.det, V3.smul]; ring
  rw [latticeGm_eq, latticeGm_eq, hd]
  rcases eq_or_ne R.det 0 with h0 | h0
  · simp [h0, V3.smul]
  simp only [V3.smul, V3.cross]
  congr 1 <;> congr 1 <;> field_simp

theorem fold_coord {s n r b : ℕ} (hr : r < s) (hb : b < n) (k : ℝ) :
    (k + ((-harm (s * n) (place1 s n r b) : ℤ) : ℝ)) * (1 / (s : ℝ)) = foldCoord s n k r + ((-harm n b : ℤ) : ℝ) := by
  have hs : (s : ℝ) ≠ 0 := by exact_mod_cast (show s ≠ 0 by omega)
  rw [harm_place1 hr hb]
  unfold foldCoord
  push_cast
  field_simp
  ring

/-- The large cell. -/
noncomputable def super (s : V3 ℕ) (P : Problem) (k' : V3 ℝ) (e' : ℕ → HMat) (m' : Option (ℕ → HMat)) : Problem :=
  ⟨s.x * P.nx, s.y * P.ny, s.z * P.nz, P.nfb, ⟨V3.smul (s.x : ℝ) P.Rm.c0, V3.smul (s.y : ℝ) P.Rm.c1, V3.smul (s.z : ℝ) P.Rm.c2⟩, k', e', m'⟩

/-- The splitting of its planewaves. -/
def superSplit (s : V3 ℕ) (P : Problem) (k' : V3 ℝ) (e' : ℕ → HMat) (m' : Option (ℕ → HMat)) : Split (folds s) P.data.N (super s P k' e' m').data.N :=
  foldSplit s ⟨P.nx, P.ny, P.nz⟩

theorem super_kpg {s : V3 ℕ} {P : Problem} {k' : V3 ℝ} {e' : ℕ → HMat} {m' : Option (ℕ → HMat)} {r : ℕ × ℕ × ℕ} (hr : r ∈ folds s) {G : ℕ}
    (hG : G < P.data.N) : (super s P k' e' m').data.kpg ((superSplit s P k' e' m').place r G) = (folded s P k' r).data.kpg G := by
  simp only [folds, Finset.mem_product, Finset.mem_range] at hr
  obtain ⟨⟨b1, b2, b3⟩, hc⟩ := box_coords (n := ⟨P.nx, P.ny, P.nz⟩) hG
  have e1 : (super s P k' e' m').data.kpg ((superSplit s P k' e' m').place r G) = _ :=
    data_kpg (super s P k' e' m') (place1_lt hr.1 b1) (place1_lt hr.2.1 b2) (place1_lt hr.2.2 b3)
  have e2 := data_kpg (folded s P k' r) b1 b2 b3
  have e3 : (folded s P k' r).data.kpg G = _ := (congrArg (folded s P k' r).data.kpg hc.symm).trans e2
  rw [e1, e3]
  congr 1
  unfold Problem.wave
  have hg := latticeGm_super (s := s) (by omega) (by omega) (by omega) P.Rm
  dsimp only [super, folded]
  rw [hg]
  unfold waveVec
  have c1 := fold_coord hr.1 b1 k'.x
  have c2 := fold_coord hr.2.1 b2 k'.y
  have c3 := fold_coord hr.2.2 b3 k'.z
  dsimp only at c1 c2 c3 ⊢
  rw [← c1, ← c2, ← c3]
  ext <;> simp only [V3.smul, V3.add_x, V3.add_y, V3.add_z] <;> ring

theorem super_col {s : V3 ℕ} {P : Problem} {k' : V3 ℝ} {e' : ℕ → HMat} {m' : Option (ℕ → HMat)}
    {ex : KData → ℂ → ℂ → V3 ℂ} {co : KData → V3 ℂ → ℝ → ℂ × ℂ} {M M' : ℕ → HMat} (c : ℝ)
    (hco : ∀ k (c : ℝ) a t, co k (V3.smul (c : ℂ) a) t = co k a (c * t))
    (hM : ∀ X < s.x * P.nx * (s.y * P.ny) * (s.z * P.nz), M' X = M (foldPoint s ⟨P.nx, P.ny, P.nz⟩ X))
    (x : ℕ → ℂ × ℂ) {r : ℕ × ℕ × ℕ} (hr : r ∈ folds s) {G : ℕ} (hG : G < P.data.N) :
    colOp ex co (super s P k' e' m').data M' (c / ((super s P k' e' m').data.N : ℝ)) x ((superSplit s P k' e' m').place r G) =
      colOp ex co (folded s P k' r).data M (c / ((folded s P k' r).data.N : ℝ)) (fun G => x ((superSplit s P k' e' m').place r G)) G := by
  have hlt := (superSplit s P k' e' m').lt r hr G hG
  have n1 : ((super s P k' e' m').data.N : ℝ) ≠ 0 := by exact_mod_cast (show (super s P k' e' m').data.N ≠ 0 by omega)
  have n2 : (P.data.N : ℝ) ≠ 0 := by exact_mod_cast (show P.data.N ≠ 0 by omega)
  have hs : c / ((super s P k' e' m').data.N : ℝ) * (super s P k' e' m').data.N = c / (P.data.N : ℝ) * P.data.N := by
    rw [div_mul_cancel₀ _ n1, div_mul_cancel₀ _ n2]
  have hW : ∀ r ∈ folds s, ∀ X < (super s P k' e' m').data.N, ∀ G < P.data.N, (super s P k' e' m').data.Wf X ((superSplit s P k' e' m').place r G) =
      foldPhase s ⟨P.nx, P.ny, P.nz⟩ r X * (folded s P k' r).data.Wf (foldPoint s ⟨P.nx, P.ny, P.nz⟩ X) G :=
    fun r hr X hX G hG => dft_fold (s := s) (n := ⟨P.nx, P.ny, P.nz⟩) hr hX hG
  exact split_colOp (P' := super s P k' e' m') (Q := folded s P k') (N := P.data.N) (fun _ _ => rfl) (superSplit s P k' e' m') hs hco
    (fun X hX => (foldPoint_lt (s := s) (n := ⟨P.nx, P.ny, P.nz⟩) hX).1) hW hM (fun r hr G hG => super_kpg hr hG) x hr hG

theorem super_op {s : V3 ℕ} {P : Problem} {k' : V3 ℝ} {e' : ℕ → HMat} {m' : Option (ℕ → HMat)}
    (hM : ∀ X < s.x * P.nx * (s.y * P.ny) * (s.z * P.nz), e' X = P.epsInv (foldPoint s ⟨P.nx, P.ny, P.nz⟩ X))
    (x : ℕ → ℂ × ℂ) {r : ℕ × ℕ × ℕ} (hr : r ∈ folds s) {G : ℕ} (hG : G < P.data.N) :
    bandOp (super s P k' e' m').data x ((superSplit s P k' e' m').place r G) =
      bandOp (folded s P k' r).data (fun G => x ((superSplit s P k' e' m').place r G)) G :=
  super_col (-1) (fun k c a t => by refine Prod.ext ?_ ?_ <;> apply Complex.ext <;> simp [crossC2t, V3.smul] <;> ring) hM x hr hG

theorem super_mu {s : V3 ℕ} {P : Problem} {k' : V3 ℝ} {e' : ℕ → HMat} {m' : Option (ℕ → HMat)} {mu mu' : ℕ → HMat}
    (hM : ∀ X < s.x * P.nx * (s.y * P.ny) * (s.z * P.nz), mu' X = mu (foldPoint s ⟨P.nx, P.ny, P.nz⟩ X))
    (x : ℕ → ℂ × ℂ) {r : ℕ × ℕ × ℕ} (hr : r ∈ folds s) {G : ℕ} (hG : G < P.data.N) :
    bandMu (super s P k' e' m').data mu' x ((superSplit s P k' e' m').place r G) =
      bandMu (folded s P k' r).data mu (fun G => x ((superSplit s P k' e' m').place r G)) G :=
  super_col 1 (fun k c a t => by refine Prod.ext ?_ ?_ <;> apply Complex.ext <;> simp [c2t, V3.smul] <;> ring) hM x hr hG

theorem super_point {s : V3 ℕ} {P : Problem} (f f' : ℕ → HMat)
    (hf : ∀ x < s.x * P.nx, ∀ y < s.y * P.ny, ∀ z < s.z * P.nz, f' (address ⟨s.x * P.nx, s.y * P.ny, s.z * P.nz⟩ x y z) =
      f (address ⟨P.nx, P.ny, P.nz⟩ (x % P.nx) (y % P.ny) (z % P.nz))) :
    ∀ X < s.x * P.nx * (s.y * P.ny) * (s.z * P.nz), f' X = f (foldPoint s ⟨P.nx, P.ny, P.nz⟩ X) := by
  intro X hX
  obtain ⟨⟨b1, b2, b3⟩, hc⟩ := box_coords (n := ⟨s.x * P.nx, s.y * P.ny, s.z * P.nz⟩) hX
  have := hf _ b1 _ b2 _ b3
  rw [← hc]
  refine this.trans ?_
  rw [hc]
  rfl

theorem super_modes {s : V3 ℕ} {P : Problem} {k' : V3 ℝ} {e' : ℕ → HMat} {m' : Option (ℕ → HMat)}
    (h6 : ∀ X < s.x * P.nx * (s.y * P.ny) * (s.z * P.nz), e' X = P.epsInv (foldPoint s ⟨P.nx, P.ny, P.nz⟩ X))
    (h7 : Both (fun f f' => ∀ X < s.x * P.nx * (s.y * P.ny) * (s.z * P.nz), f' X = f (foldPoint s ⟨P.nx, P.ny, P.nz⟩ X)) P.muInv m') :
    FoldedModes (folds s) (fun r => (folded s P k' r).data) P.data.N (super s P k' e' m').data := by
  rcases h7 with ⟨m1, m2⟩ | ⟨mu, mu', m1, m2, h7⟩
  · have f1 : (super s P k' e' m').data.muInv = none := m2
    have f2 : ∀ r, (folded s P k' r).data.muInv = none := fun _ => m1
    refine split_modes (fun _ _ => rfl) (fun _ _ => rfl) (superSplit s P k' e' m') (fun x r hr G hG => ?_) (fun x r hr G hG => ?_)
    · unfold bandMaxwell
      rw [f1, f2]
      exact super_op h6 x hr hG
    · unfold bandMuinv
      rw [f1, f2]
  · have f1 : (super s P k' e' m').data.muInv = some mu' := m2
    have f2 : ∀ r, (folded s P k' r).data.muInv = some mu := fun _ => m1
    refine split_modes (fun _ _ => rfl) (fun _ _ => rfl) (superSplit s P k' e' m') (fun x r hr G hG => ?_) (fun x r hr G hG => ?_)
    · unfold bandMaxwell
      rw [f1, f2]
      dsimp only
      rw [super_mu h7 _ hr hG]
      refine colOp_congr _ _ _ _ _ (fun G hG => ?_) _
      rw [super_op h6 _ hr hG]
      refine colOp_congr _ _ _ _ _ (fun G hG => ?_) _
      rw [super_mu h7 _ hr hG]
    · unfold bandMuinv
      rw [f1, f2]
      exact super_mu h7 _ hr hG

/-- C107, modes: for every grid, lattice, permittivity, permeability, FFT batch size and every repetition `s` of the cell, the fields of the large
cell at the wavevector `k` split, linearly, one to one and with the same norm, into one field of the small cell for each of the `s₁ s₂ s₃`
wavevectors that are folded onto `k`, and a field is a mode of the large cell if and only if it is not zero and each of its parts is zero or a
mode of the small cell with the same frequency. -/
theorem C107_modes {s : V3 ℕ} {P P' : Problem} (h : Supercell s P P') :
    FoldedModes (folds s) (fun r => (folded s P P'.k r).data) P.data.N P'.data := by
  obtain ⟨nx', ny', nz', nfb', Rm', k', e', m'⟩ := P'
  obtain ⟨h1, h2, h3, h4, h5, h6, h7⟩ := h
  dsimp only at *
  subst h1 h2 h3 h4 h5
  refine super_modes (super_point _ _ h6) ?_
  rcases h7 with h7 | ⟨mu, mu', m1, m2, h7⟩
  · exact Or.inl h7
  · exact Or.inr ⟨mu, mu', m1, m2, super_point _ _ h7⟩

/-! ### Counting -/

theorem isMode_congr {d : OpData} {lam : ℝ} {X Y : ℕ → ℂ} (h : ∀ a < d.N * 2, X a = Y a) (hX : IsMode d lam X) : IsMode d lam Y := by
  rcases Nat.eq_zero_or_pos d.nfb with h0 | hpos
  · exact absurd hX (not_isMode _ h0 _ _)
  have hb : ∀ G < d.N, band 1 X 0 G = band 1 Y 0 G := by
    intro G hG
    rw [band1, band1, h _ (by omega), h _ (by omega)]
  rw [isMode_iff _ hpos] at hX ⊢
  obtain ⟨⟨G, hG, hne⟩, hX⟩ := hX
  refine ⟨⟨G, hG, by rw [← hb G hG]; exact hne⟩, fun G hG => ?_⟩
  have e : bandMuinv d (band 1 X 0) G = bandMuinv d (band 1 Y 0) G := by
    unfold bandMuinv
    cases d.muInv with
    | none => exact hb G hG
    | some mu => exact colOp_congr _ _ _ _ _ hb G
  rw [← Target.bandMaxwell_congr d hb, ← e]
  exact hX G hG

theorem modesUpTo_mono {d : OpData} {lam : ℝ} {m n : ℕ} (hmn : m ≤ n) (h : ModesUpTo d lam n) : ModesUpTo d lam m := by
  obtain ⟨X, hli, hX⟩ := h
  refine ⟨fun i => X (Fin.castLE hmn i), fun c hc i => ?_, fun i => hX _⟩
  have := hli (fun j => if hj : j.1 < m then c ⟨j.1, hj⟩ else 0) (fun a ha => ?_) (Fin.castLE hmn i)
  · simpa using this
  · refine Eq.trans ?_ (hc a ha)
    refine (Finset.sum_of_injOn (Fin.castLE hmn) (fun _ _ _ _ h => Fin.castLE_injective hmn h) (fun _ _ => Finset.mem_coe.2 (Finset.mem_univ _)) ?_ ?_).symm
    · intro j _ hj
      rw [dif_neg, zero_mul]
      exact fun hlt => hj ⟨⟨j.1, hlt⟩, Finset.mem_coe.2 (Finset.mem_univ _), rfl⟩
    · intro j _
      simp

theorem exists_reduced {ι : Type} (R : Finset ι) (m : ι → ℕ) {n : ℕ} (h : n ≤ ∑ r ∈ R, m r) : ∃ m' : ι → ℕ, (∀ r ∈ R, m' r ≤ m r) ∧ ∑ r ∈ R, m' r = n := by
  classical
  induction R using Finset.induction_on generalizing n with
  | empty => exact ⟨m, by simp, by simp at h; simp [h]⟩
  | insert a R ha ih =>
    rw [Finset.sum_insert ha] at h
    obtain ⟨m', h1, h2⟩ := ih (n := n - min n (m a)) (by omega)
    refine ⟨Function.update m' a (min n (m a)), fun r hr => ?_, ?_⟩
    · rcases Finset.mem_insert.1 hr with rfl | hr
      · rw [Function.update_self]; exact min_le_right _ _
      · rw [Function.update_of_ne (fun h : r = a => ha (h ▸ hr))]; exact h1 r hr
    · rw [Finset.sum_insert ha, Function.update_self]
      have : ∑ r ∈ R, Function.update m' a (min n (m a)) r = ∑ r ∈ R, m' r :=
        Finset.sum_congr rfl fun r hr => Function.update_of_ne (fun h : r = a => ha (h ▸ hr)) _ _
      rw [this, h2]
      omega

theorem folded_zero {R : Finset (ℕ × ℕ × ℕ)} {N N' : ℕ} {part : ℕ × ℕ × ℕ → (ℕ → ℂ) →ₗ[ℂ] (ℕ → ℂ)}
    (hnorm : ∀ X, ∑ a ∈ Finset.range (N' * 2), Complex.normSq (X a) = ∑ r ∈ R, ∑ a ∈ Finset.range (N * 2), Complex.normSq (part r X a)) (X : ℕ → ℂ) :
    (∀ a < N' * 2, X a = 0) ↔ ∀ r ∈ R, ∀ a < N * 2, part r X a = 0 := by
  have key : ∀ (n : ℕ) (Z : ℕ → ℂ), ∑ a ∈ Finset.range n, Complex.normSq (Z a) = 0 ↔ ∀ a < n, Z a = 0 := by
    intro n Z
    rw [Finset.sum_eq_zero_iff_of_nonneg fun a _ => Complex.normSq_nonneg _]
    simp only [Finset.mem_range, Complex.normSq_eq_zero]
  rw [← key, hnorm, Finset.sum_eq_zero_iff_of_nonneg fun r _ => Finset.sum_nonneg fun a _ => Complex.normSq_nonneg _]
  refine forall_congr' fun r => imp_congr_right fun _ => ?_
  rw [key]

theorem lincomb_part (L : (ℕ → ℂ) →ₗ[ℂ] (ℕ → ℂ)) {ι : Type} [Fintype ι] (c : ι → ℂ) (X : ι → ℕ → ℂ) (a : ℕ) :
    L (fun a => ∑ i, c i * X i a) a = ∑ i, c i * L (X i) a := by
  have : (fun a => ∑ i, c i * X i a) = ∑ i, c i • X i := by
    funext a
    simp [Finset.sum_apply]
  rw [this, map_sum, Finset.sum_apply]
  refine Finset.sum_congr rfl fun i _ => ?_
  rw [map_smul, Pi.smul_apply, smul_eq_mul]

theorem folded_count {R : Finset (ℕ × ℕ × ℕ)} {d : ℕ × ℕ × ℕ → OpData} {N : ℕ} {d' : OpData} (hN : ∀ r ∈ R, (d r).N = N) (h : FoldedModes R d N d')
    (lam : ℝ) (n : ℕ) : ModesUpTo d' lam n ↔ ∃ m : ℕ × ℕ × ℕ → ℕ, ∑ r ∈ R, m r = n ∧ ∀ r ∈ R, ModesUpTo (d r) lam (m r) := by
  obtain ⟨part, hnorm, hsurj, hmode⟩ := h
  constructor
  · rintro ⟨X, hli, hX⟩
    choose mu hmu hX using hX
    let v : ℕ × ℕ × ℕ → Fin n → (Fin (N * 2) → ℂ) := fun r i a => part r (X i) a
    have hb : ∀ r, ∃ m, Module.finrank ℂ (Submodule.span ℂ (Set.range (v r))) = m ∧ (r ∈ R → ModesUpTo (d r) lam m) := by
      intro r
      obtain ⟨κ, f, hf, hspan, hind⟩ := exists_linearIndependent' ℂ (v r)
      have : Finite κ := Finite.of_injective f hf
      have : Fintype κ := Fintype.ofFinite κ
      have e := Fintype.equivFin κ
      refine ⟨Fintype.card κ, by rw [← hspan]; exact finrank_span_eq_card hind, fun hr => ?_⟩
      refine ⟨fun j => part r (X (f (e.symm j))), fun c hc j => ?_, fun j => ⟨mu (f (e.symm j)), hmu _, ?_⟩⟩
      · have := Fintype.linearIndependent_iff.1 hind (fun k => c (e k)) ?_ (e.symm j)
        · simpa using this
        · funext a
          rw [Finset.sum_apply, Pi.zero_apply, ← hc a (by rw [hN r hr]; exact a.2), ← Equiv.sum_comp e]
          refine Finset.sum_congr rfl fun k _ => ?_
          simp [v]
      · rcases ((hmode _ _).1 (hX (f (e.symm j)))).2 r hr with h0 | h0
        · exact absurd (funext fun a : Fin (N * 2) => h0 a a.2) (hind.ne_zero (e.symm j))
        · exact h0
    choose m hm1 hm2 using hb
    have hle : n ≤ ∑ r ∈ R, m r := by
      let L : (Fin n → ℂ) →ₗ[ℂ] (∀ r : R, Submodule.span ℂ (Set.range (v r))) := LinearMap.pi fun r =>
        LinearMap.codRestrict _ (Fintype.linearCombination ℂ (v r)) fun c => by
          rw [Fintype.linearCombination_apply]
          exact Submodule.sum_mem _ fun i _ => Submodule.smul_mem _ _ (Submodule.subset_span ⟨i, rfl⟩)
      have hL : Function.Injective L := by
        rw [← LinearMap.ker_eq_bot, LinearMap.ker_eq_bot']
        intro c hc
        refine funext fun i => hli c ?_ i
        have hz := (folded_zero hnorm (fun a => ∑ i, c i * X i a)).2 ?_
        · exact hz
        · intro r hr a ha
          rw [lincomb_part]
          have := congrFun (congrArg Subtype.val (congrFun hc ⟨r, hr⟩)) ⟨a, ha⟩
          simpa [L, v, Fintype.linearCombination_apply] using this
      have := LinearMap.finrank_le_finrank_of_injective hL
      rw [Module.finrank_fin_fun, Module.finrank_pi_fintype] at this
      refine this.trans (le_of_eq ?_)
      rw [← Finset.sum_coe_sort R m]
      exact Finset.sum_congr rfl fun r _ => hm1 r
    obtain ⟨m', h1, h2⟩ := exists_reduced R m hle
    exact ⟨m', h2, fun r hr => modesUpTo_mono (h1 r hr) (hm2 r hr)⟩
  · rintro ⟨m, rfl, hm⟩
    have hm' : ∀ r : R, ModesUpTo (d r) lam (m r) := fun r => hm r r.2
    choose Z hli mu hmu hZ using hm'
    classical
    let Y : (Σ r : R, Fin (m r)) → ℕ × ℕ × ℕ → ℕ → ℂ := fun p r => if r = p.1 then Z p.1 p.2 else 0
    choose X hX using fun p => hsurj (Y p)
    have hcard : Fintype.card (Σ r : R, Fin (m r)) = ∑ r ∈ R, m r := by
      rw [Fintype.card_sigma, ← Finset.sum_coe_sort R m]
      simp
    let e := Fintype.equivFinOfCardEq hcard
    have hself : ∀ p, ∀ a < N * 2, part p.1 (X p) a = Z p.1 p.2 a := by
      intro p a ha
      rw [hX p p.1 p.1.2 a ha]
      simp [Y]
    have hother : ∀ p, ∀ r ∈ R, r ≠ p.1 → ∀ a < N * 2, part r (X p) a = 0 := by
      intro p r hr hne a ha
      rw [hX p r hr a ha]
      simp [Y, hne]
    refine ⟨fun i => X (e.symm i), fun c hc i => ?_, fun i => ⟨mu (e.symm i).1 (e.symm i).2, hmu _ _, ?_⟩⟩
    · have hc' : ∀ a < d'.N * 2, ∑ p, c (e p) * X p a = 0 := by
        intro a ha
        rw [← hc a ha, ← Equiv.sum_comp e]
        simp
      have hz := (folded_zero hnorm (fun a => ∑ p, c (e p) * X p a)).1 hc'
      have := hli (e.symm i).1 (fun j => c (e ⟨(e.symm i).1, j⟩)) ?_ (e.symm i).2
      · simpa using this
      · intro a ha
        rw [hN _ (e.symm i).1.2] at ha
        have h0 := hz (e.symm i).1 (e.symm i).1.2 a ha
        rw [lincomb_part, Fintype.sum_sigma, Fintype.sum_eq_single (e.symm i).1] at h0
        · rw [← h0]
          refine Finset.sum_congr rfl fun j _ => ?_
          rw [hself ⟨(e.symm i).1, j⟩ a ha]
        · intro r hr
          refine Finset.sum_eq_zero fun j _ => ?_
          rw [hother ⟨r, j⟩ _ (e.symm i).1.2 (fun h => hr (Subtype.ext h.symm)) a ha, mul_zero]
    · dsimp only
      generalize e.symm i = p
      have hz := hZ p.1 p.2
      rw [hmode]
      constructor
      · obtain ⟨⟨a, ha, hne⟩, -⟩ := hz
        rw [hN _ p.1.2] at ha
        exact ⟨p.1, p.1.2, a, ha, by rw [hself p a ha]; exact hne⟩
      · intro r hr
        by_cases hrp : r = p.1
        · subst hrp
          exact Or.inr (isMode_congr (fun a ha => (hself p a (by rw [hN _ p.1.2] at ha; exact ha)).symm) hz)
        · exact Or.inl (hother p r hr hrp)

/-- C107, frequencies: the frequencies of the large cell are those of the small cell at all the folded wavevectors together, with their
multiplicities: the large cell has at least `n` independent modes up to a frequency if and only if the small cell has, at the folded wavevectors,
numbers of independent modes up to that frequency that add up to `n`. -/
theorem C107_frequencies {s : V3 ℕ} {P P' : Problem} (h : Supercell s P P') (lam : ℝ) (n : ℕ) :
    ModesUpTo P'.data lam n ↔ ∃ m : ℕ × ℕ × ℕ → ℕ, ∑ r ∈ folds s, m r = n ∧ ∀ r ∈ folds s, ModesUpTo (folded s P P'.k r).data lam (m r) :=
  have hN : ∀ r ∈ folds s, (folded s P P'.k r).data.N = P.data.N := fun _ _ => rfl
  folded_count (d := fun r => (folded s P P'.k r).data) hN (C107_modes h) lam n

/-- Three layers along `x` (an odd number of grid points), one of them denser. -/
noncomputable def layered : Problem := ⟨3, 1, 1, 1, M3.one, 0, fun r => if r = 0 then ⟨1 / 4, 1 / 4, 1 / 4, 0, 0, 0⟩ else ⟨1, 1, 1, 0, 0, 0⟩, none⟩

/-- The same layers in a cell of twice the length, at the wavevector 1/4 of the large cell. -/
noncomputable def layered2 : Problem := ⟨6, 1, 1, 1, ⟨⟨2, 0, 0⟩, ⟨0, 1, 0⟩, ⟨0, 0, 1⟩⟩, ⟨1 / 4, 0, 0⟩,
  fun r => if r % 3 = 0 then ⟨1 / 4, 1 / 4, 1 / 4, 0, 0, 0⟩ else ⟨1, 1, 1, 0, 0, 0⟩, none⟩

/-- Non-vacuity: the layers in a cell of twice the length; the two folded wavevectors are 1/8 - 1 and -3/8. -/
example : Supercell ⟨2, 1, 1⟩ layered layered2 ∧ (folded ⟨2, 1, 1⟩ layered layered2.k (0, 0, 0)).k = ⟨1 / 8 - 1, 0, 0⟩ ∧
    (folded ⟨2, 1, 1⟩ layered layered2.k (1, 0, 0)).k = ⟨-(3 / 8), 0, 0⟩ := by
  refine ⟨⟨rfl, rfl, rfl, rfl, ?_, fun x hx y hy z hz => ?_, Or.inl ⟨rfl, rfl⟩⟩, ?_, ?_⟩
  · simp [layered, layered2, V3.smul, M3.one]
  · have h1 : y = 0 := by simp [layered2] at hy; exact hy
    have h2 : z = 0 := by simp [layered2] at hz; exact hz
    subst h1 h2
    simp [layered, layered2, address]
  · ext <;> simp [folded, foldCoord, foldShift, layered, layered2] <;> norm_num
  · ext <;> simp [folded, foldCoord, foldShift, layered, layered2] <;> norm_num

end Mpb.Invariance

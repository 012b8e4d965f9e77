import Verif.Perturb.Props
import Mathlib.Logic.Equiv.Fin.Basic

/-! # The curl-curl operator in Cartesian coordinates: a family of matrices that is smooth in the wavevector -/

namespace Mpb.Perturb
open Mpb.Maxwell Mpb.Maxwell.Spec Mpb.Invariance Mpb.Invariance.Spec Mpb.Invariance.MinMax Spec
open Matrix
open scoped ComplexOrder

/-! ### A pencil and its extension by zeros -/

theorem form_one {m : ℕ} (x : Fin m → ℂ) : form 1 x = ∑ i, Complex.normSq (x i) := by
  unfold form
  rw [one_mulVec]
  simp only [dotProduct, Complex.re_sum, Pi.star_apply]
  refine Finset.sum_congr rfl fun i _ => ?_
  simp [Complex.normSq_apply]

/-- If `A` is the matrix `T` in an orthonormal basis of a subspace, and `T` vanishes on the orthogonal complement, of dimension `d`, the non-negative
eigenvalue number `n` of `A` is eigenvalue number `n + d` of `T`. -/
theorem nth_extend {m M d n : ℕ} {A : Matrix (Fin m) (Fin m) ℂ} {T : Matrix (Fin M) (Fin M) ℂ} {J : Matrix (Fin M) (Fin m) ℂ} (hT : T.IsHermitian)
    (hJ : Jᴴ * J = 1) (hTJ : T * (J * Jᴴ) = T) (hA : A = Jᴴ * T * J) (hM : M = m + d) {lam : ℝ} (hl : 0 ≤ lam) (hn : IsNth A 1 n lam) :
    IsNth T 1 (n + d) lam := by
  have hAh : A.IsHermitian := by
    rw [hA]
    unfold Matrix.IsHermitian
    rw [conjTranspose_mul, conjTranspose_mul, conjTranspose_conjTranspose, hT, Matrix.mul_assoc]
  have hJT : J * Jᴴ * T = T := by
    have := congrArg conjTranspose hTJ
    rwa [conjTranspose_mul, conjTranspose_mul, conjTranspose_conjTranspose, hT] at this
  have p1 : ∀ k, (1 : Matrix (Fin k) (Fin k) ℂ).PosDef := fun k => Matrix.PosDef.one
  have f1 : ∀ y, form A y = form T (J.mulVec y) := by
    intro y
    unfold form
    rw [hA, star_mulVec, ← dotProduct_mulVec, mulVec_mulVec, mulVec_mulVec]
  have f2 : ∀ x, form T x = form A (Jᴴ.mulVec x) := by
    intro x
    rw [f1]
    unfold form
    have e1 : T.mulVec (J.mulVec (Jᴴ.mulVec x)) = T.mulVec x := by rw [mulVec_mulVec, mulVec_mulVec, Matrix.mul_assoc, hTJ]
    have e2 : star (J.mulVec (Jᴴ.mulVec x)) ⬝ᵥ T.mulVec x = star x ⬝ᵥ T.mulVec x := by
      rw [mulVec_mulVec, star_mulVec, conjTranspose_mul, conjTranspose_conjTranspose, ← dotProduct_mulVec, mulVec_mulVec, hJT]
    rw [e1, e2]
  have n1 : ∀ y, form 1 (J.mulVec y) = form 1 y := by
    intro y
    unfold form
    rw [one_mulVec, one_mulVec, star_mulVec, ← dotProduct_mulVec, mulVec_mulVec, hJ, one_mulVec]
  have n2 : ∀ x, form 1 (Jᴴ.mulVec x) ≤ form 1 x := by
    intro x
    set y := Jᴴ.mulVec x with hy
    have h0 : 0 ≤ form 1 (x - J.mulVec y) := by
      rw [form_one]; exact Finset.sum_nonneg fun _ _ => Complex.normSq_nonneg _
    have e : form 1 (x - J.mulVec y) = form 1 x - form 1 y := by
      have e2 : star (J.mulVec y) ⬝ᵥ J.mulVec y = star y ⬝ᵥ y := by
        rw [star_mulVec, ← dotProduct_mulVec, mulVec_mulVec, hJ, one_mulVec]
      have e3 : star x ⬝ᵥ J.mulVec y = star y ⬝ᵥ y := by
        rw [show star y = star x ᵥ* J by rw [hy, star_mulVec, conjTranspose_conjTranspose], ← dotProduct_mulVec]
      have e4 : star (J.mulVec y) ⬝ᵥ x = star y ⬝ᵥ y := by
        rw [star_mulVec, ← dotProduct_mulVec, ← hy]
      unfold form
      rw [one_mulVec, one_mulVec, one_mulVec, star_sub, sub_dotProduct, dotProduct_sub, dotProduct_sub, e2, e3, e4]
      simp
    linarith
  constructor
  · obtain ⟨f, hf, hev⟩ := hn.1
    refine count_conditions hT (p1 M) ((Submodule.span ℂ (Set.range f)).mkQ.comp (Matrix.mulVecLin Jᴴ)) ?_ fun x hx => ?_
    · have := Submodule.finrank_quotient_add_finrank (Submodule.span ℂ (Set.range f))
      rw [finrank_span_eq_card hf] at this
      simp only [Fintype.card_fin, Module.finrank_fintype_fun_eq_card] at this
      omega
    · have hx' : Jᴴ.mulVec x ∈ Submodule.span ℂ (Set.range f) := by simpa using hx
      rw [f2]
      exact (low_span hAh (p1 m) f hev hx').trans (mul_le_mul_of_nonneg_left (n2 x) hl)
  · intro nu hnu hc
    obtain ⟨g, hg, hev⟩ := hc
    refine hn.2 nu hnu (count_conditions hAh (p1 m) ((Submodule.span ℂ (Set.range g)).mkQ.comp (Matrix.mulVecLin J)) ?_ fun y hy => ?_)
    · have := Submodule.finrank_quotient_add_finrank (Submodule.span ℂ (Set.range g))
      rw [finrank_span_eq_card hg] at this
      simp only [Fintype.card_fin, Module.finrank_fintype_fun_eq_card] at this
      omega
    · have hy' : J.mulVec y ∈ Submodule.span ℂ (Set.range g) := by simpa using hy
      rw [f1, ← n1 y]
      exact low_span hT (p1 M) g hev hy'

/-! ### Fields as vectors -/

/-- The Cartesian components of a vector. -/
def comp (v : V3 ℂ) : Fin 3 → ℂ := ![v.x, v.y, v.z]

/-- A field at `N` points as one vector. -/
def vec (N : ℕ) (a : ℕ → V3 ℂ) : Fin (N * 3) → ℂ := fun p => comp (a p.divNat) p.modNat

theorem sum_split {N k : ℕ} (f : Fin N → Fin k → ℂ) : ∑ p : Fin (N * k), f p.divNat p.modNat = ∑ G : Fin N, ∑ b : Fin k, f G b := by
  rw [← Fintype.sum_prod_type' f]
  exact (Fintype.sum_equiv finProdFinEquiv.symm _ (fun x : Fin N × Fin k => f x.1 x.2) fun p => rfl)

theorem ext_split {N k : ℕ} {f g : Fin (N * k) → ℂ} (h : ∀ (G : Fin N) (b : Fin k), f (finProdFinEquiv (G, b)) = g (finProdFinEquiv (G, b))) : f = g := by
  funext p
  have := h (finProdFinEquiv.symm p).1 (finProdFinEquiv.symm p).2
  rwa [Prod.mk.eta, Equiv.apply_symm_apply] at this

theorem div_pack {N k : ℕ} (G : Fin N) (b : Fin k) : (finProdFinEquiv (G, b)).divNat = G := by
  have := congrArg Prod.fst (finProdFinEquiv.symm_apply_apply (G, b))
  exact this

theorem mod_pack {N k : ℕ} (G : Fin N) (b : Fin k) : (finProdFinEquiv (G, b)).modNat = b := by
  have := congrArg Prod.snd (finProdFinEquiv.symm_apply_apply (G, b))
  exact this

/-- The matrix of `k ×`. -/
def crossM (k : V3 ℝ) : Matrix (Fin 3) (Fin 3) ℂ := !![0, -(k.z : ℂ), k.y; k.z, 0, -(k.x : ℂ); -(k.y : ℂ), k.x, 0]

theorem crossM_mulVec (k : V3 ℝ) (v : V3 ℂ) (b : Fin 3) : ∑ c, crossM k b c * comp v c = comp (V3.cross (toC k) v) b := by
  fin_cases b <;> simp [crossM, comp, Fin.sum_univ_three, V3.cross, toC] <;> ring

/-- The curl of planewave amplitudes, on the grid. -/
noncomputable def curlM (W : ℕ → ℕ → ℂ) (N : ℕ) (K : ℕ → V3 ℝ) : Matrix (Fin (N * 3)) (Fin (N * 3)) ℂ :=
  fun p q => W p.divNat q.divNat * crossM (K q.divNat) p.modNat q.modNat

theorem curlM_vec (W : ℕ → ℕ → ℂ) (N : ℕ) (K : ℕ → V3 ℝ) (a : ℕ → V3 ℂ) :
    (curlM W N K).mulVec (vec N a) = vec N (transform W N fun G => V3.cross (toC (K G)) (a G)) := by
  refine ext_split fun r b => ?_
  unfold mulVec curlM vec
  simp only [dotProduct, div_pack, mod_pack]
  have e := sum_split (N := N) (k := 3) fun G c => W r G * crossM (K G) b c * comp (a G) c
  refine Eq.trans e ?_
  have e2 : ∀ G : Fin N, ∑ c, W r G * crossM (K G) b c * comp (a G) c = W r G * comp (V3.cross (toC (K G)) (a G)) b := by
    intro G
    rw [← crossM_mulVec, Finset.mul_sum]
    exact Finset.sum_congr rfl fun c _ => by ring
  simp only [e2]
  unfold transform
  fin_cases b <;> simp [comp, Finset.sum_range]

/-- The matrix of the tensors on the grid, divided by the number of points. -/
noncomputable def gridM (N : ℕ) (M : ℕ → HMat) : Matrix (Fin (N * 3)) (Fin (N * 3)) ℂ :=
  fun p q => if p.divNat = q.divNat then 1 / (N : ℂ) * Tensor.Spec.toMatrix (M p.divNat) p.modNat q.modNat else 0

theorem toMatrix_herm (e : HMat) (a b : V3 ℂ) : ∑ i, ∑ j, (starRingEnd ℂ) (comp a i) * (Tensor.Spec.toMatrix e i j * comp b j) = herm a (e.mulVec b) := by
  rw [herm_mulVec]
  simp [Fin.sum_univ_three, comp, Tensor.Spec.toMatrix]
  ring

theorem gridM_vec (N : ℕ) (M : ℕ → HMat) (a b : ℕ → V3 ℂ) : star (vec N a) ⬝ᵥ (gridM N M).mulVec (vec N b) = gridForm N M a b := by
  unfold gridForm
  simp only [dotProduct, mulVec, Pi.star_apply, Finset.mul_sum]
  have e := sum_split (N := N) (k := 3) fun r i => ∑ q : Fin (N * 3), star (comp (a r) i) * ((if r = q.divNat then 1 / (N : ℂ) * Tensor.Spec.toMatrix (M r) i q.modNat else 0) *
    comp (b q.divNat) q.modNat)
  refine Eq.trans e ?_
  rw [Finset.sum_range]
  refine Finset.sum_congr rfl fun r _ => ?_
  have e2 : ∀ i, ∑ q : Fin (N * 3), star (comp (a r) i) * ((if r = q.divNat then 1 / (N : ℂ) * Tensor.Spec.toMatrix (M r) i q.modNat else 0) *
      comp (b q.divNat) q.modNat) = ∑ j, 1 / (N : ℂ) * ((starRingEnd ℂ) (comp (a r) i) * (Tensor.Spec.toMatrix (M r) i j * comp (b r) j)) := by
    intro i
    have e3 := sum_split (N := N) (k := 3) fun s j => star (comp (a r) i) * ((if r = s then 1 / (N : ℂ) * Tensor.Spec.toMatrix (M r) i j else 0) * comp (b s) j)
    refine Eq.trans e3 ?_
    rw [Finset.sum_eq_single r]
    · refine Finset.sum_congr rfl fun j _ => ?_
      rw [if_pos rfl]
      show (starRingEnd ℂ) _ * _ = _
      ring
    · intro s _ hs
      exact Finset.sum_eq_zero fun j _ => by rw [if_neg (Ne.symm hs)]; ring
    · intro h; exact absurd (Finset.mem_univ _) h
  simp only [e2]
  rw [← toMatrix_herm, Finset.mul_sum]
  exact Finset.sum_congr rfl fun i _ => by rw [Finset.mul_sum]

theorem vec_dot (N : ℕ) (a b : ℕ → V3 ℂ) : star (vec N a) ⬝ᵥ vec N b = Velocity.ip N a b := by
  unfold Velocity.ip
  have e := sum_split (N := N) (k := 3) fun r i => star (comp (a r) i) * comp (b r) i
  refine Eq.trans e ?_
  rw [Finset.sum_range]
  refine Finset.sum_congr rfl fun r _ => ?_
  simp [Fin.sum_univ_three, comp, herm]

/-- The field with the given components. -/
noncomputable def unvec {N : ℕ} (x : Fin (N * 3) → ℂ) (G : ℕ) : V3 ℂ :=
  if h : G < N then ⟨x (finProdFinEquiv (⟨G, h⟩, 0)), x (finProdFinEquiv (⟨G, h⟩, 1)), x (finProdFinEquiv (⟨G, h⟩, 2))⟩ else ⟨0, 0, 0⟩

theorem vec_unvec {N : ℕ} (x : Fin (N * 3) → ℂ) : vec N (unvec x) = x := by
  refine ext_split fun G b => ?_
  unfold vec unvec
  rw [div_pack, mod_pack, dif_pos G.2]
  fin_cases b <;> rfl

theorem mat_ext {m n : ℕ} {A B : Matrix (Fin m) (Fin n) ℂ} (h : ∀ x y, star x ⬝ᵥ A.mulVec y = star x ⬝ᵥ B.mulVec y) : A = B := by
  ext i j
  have := h (Pi.single i 1) (Pi.single j 1)
  rw [Matrix.mulVec_single_one, Matrix.mulVec_single_one] at this
  simpa [dotProduct, Pi.single_apply] using this

theorem vec_congr {N : ℕ} {a b : ℕ → V3 ℂ} (h : ∀ G < N, a G = b G) : vec N a = vec N b := by
  funext p
  unfold vec
  rw [h _ p.divNat.2]

/-- From transverse to Cartesian amplitudes. -/
noncomputable def toCart (d : OpData) : Matrix (Fin (d.N * 3)) (Fin (d.N * 2)) ℂ :=
  LinearMap.toMatrix' (R := ℂ)
    { toFun := fun c => vec d.N (fun G => cart (d.kpg G) (pairs (padded c) G))
      map_add' := by
        intro x y
        refine ext_split fun G b => ?_
        rw [Pi.add_apply]
        unfold vec
        rw [div_pack, mod_pack]
        have e : pairs (padded (x + y)) G = pairs (padded x) G + pairs (padded y) G := by
          refine Prod.ext ?_ ?_ <;> simp only [pairs, LinearEquiv.coe_mk, LinearMap.coe_mk, AddHom.coe_mk, padded, Prod.mk_add_mk] <;> split_ifs <;> simp
        simp only [e]
        fin_cases b <;> simp [comp, cart] <;> ring
      map_smul' := by
        intro c x
        refine ext_split fun G b => ?_
        rw [Pi.smul_apply]
        unfold vec
        rw [div_pack, mod_pack]
        have e : pairs (padded (c • x)) G = (c * (pairs (padded x) G).1, c * (pairs (padded x) G).2) := by
          refine Prod.ext ?_ ?_ <;> simp only [pairs, LinearEquiv.coe_mk, LinearMap.coe_mk, AddHom.coe_mk, padded] <;> split_ifs <;> simp
        simp only [e]
        fin_cases b <;> simp [comp, cart] <;> ring }

theorem toCart_mulVec (d : OpData) (X : ℕ → ℂ) : (toCart d).mulVec (firstOf (d.N * 2) X) = vec d.N fun G => cart (d.kpg G) (pairs X G) := by
  unfold toCart
  rw [LinearMap.toMatrix'_mulVec]
  show (vec d.N fun G => cart (d.kpg G) (pairs (padded (firstOf (d.N * 2) X)) G)) = _
  refine vec_congr fun G hG => ?_
  rw [pairs_congr (fun a ha => padded_firstOf X ha) hG]

theorem herm_cart (k : KData) (v : ℂ × ℂ) (a : V3 ℂ) : herm (cart k v) a = hermT v (c2t k a 1) := by
  apply Complex.ext <;> simp [herm, cart, hermT, c2t, toC] <;> ring

theorem toCart_adjoint (d : OpData) (a : ℕ → V3 ℂ) : (toCart d)ᴴ.mulVec (vec d.N a) = firstOf (d.N * 2) (pairs.symm fun G => c2t (d.kpg G) (a G) 1) := by
  have key : ∀ y : Fin (d.N * 2) → ℂ, star y ⬝ᵥ (toCart d)ᴴ.mulVec (vec d.N a) = star y ⬝ᵥ firstOf (d.N * 2) (pairs.symm fun G => c2t (d.kpg G) (a G) 1) := by
    intro y
    rw [dotProduct_mulVec, ← star_mulVec, ← firstOf_padded y, toCart_mulVec, vec_dot, dot_firstOf, LinearEquiv.apply_symm_apply]
    unfold Velocity.ip Spec.inner
    exact Finset.sum_congr rfl fun G _ => herm_cart _ _ _
  funext i
  have := key (Pi.single i 1)
  simpa [dotProduct, Pi.single_apply] using this

theorem toCart_unitary {d : OpData} {K : ℕ → V3 ℝ} (hK : ∀ G < d.N, IsBasis (K G) (d.kpg G)) : (toCart d)ᴴ * toCart d = 1 := by
  refine mat_ext fun x y => ?_
  rw [one_mulVec, ← mulVec_mulVec, dotProduct_mulVec, ← star_mulVec, ← firstOf_padded x, ← firstOf_padded y, toCart_mulVec, toCart_mulVec, vec_dot, dot_firstOf]
  exact Velocity.ip_cart hK _ _

theorem curlM_transverse {d : OpData} {K : ℕ → V3 ℝ} (hK : ∀ G < d.N, IsBasis (K G) (d.kpg G)) :
    curlM d.Wf d.N K * (toCart d * (toCart d)ᴴ) = curlM d.Wf d.N K := by
  refine mat_ext fun x y => ?_
  rw [← mulVec_mulVec, ← mulVec_mulVec, ← vec_unvec y, toCart_adjoint, toCart_mulVec, curlM_vec, curlM_vec, LinearEquiv.apply_symm_apply]
  congr 1
  refine vec_congr fun r _ => ?_
  refine Invariance.transform_congr (fun G hG => ?_) r
  rw [cross_c2t (hK G hG)]
  ext <;> simp

/-- `∇× ε⁻¹ ∇×` on Cartesian amplitudes. -/
noncomputable def curlCurl (d : OpData) (K : ℕ → V3 ℝ) : Matrix (Fin (d.N * 3)) (Fin (d.N * 3)) ℂ :=
  (curlM d.Wf d.N K)ᴴ * gridM d.N d.epsInv * curlM d.Wf d.N K

theorem gridM_hermitian (N : ℕ) (M : ℕ → HMat) : (gridM N M).IsHermitian := by
  refine mat_ext fun x y => ?_
  have e : star x ⬝ᵥ (gridM N M).mulVec y = star (star y ⬝ᵥ (gridM N M).mulVec x) := by
    rw [← vec_unvec x, ← vec_unvec y, gridM_vec, gridM_vec, gridForm_symm]
    rfl
  rw [e, star_dotProduct, star_mulVec, conjTranspose_conjTranspose, ← dotProduct_mulVec]

theorem curlCurl_hermitian (d : OpData) (K : ℕ → V3 ℝ) : (curlCurl d K).IsHermitian := by
  unfold curlCurl Matrix.IsHermitian
  rw [conjTranspose_mul, conjTranspose_mul, conjTranspose_conjTranspose, gridM_hermitian, Matrix.mul_assoc]

theorem curlCurl_transverse {d : OpData} {K : ℕ → V3 ℝ} (hK : ∀ G < d.N, IsBasis (K G) (d.kpg G)) :
    curlCurl d K * (toCart d * (toCart d)ᴴ) = curlCurl d K := by
  unfold curlCurl
  rw [Matrix.mul_assoc, curlM_transverse hK]

theorem curlOp_mat (P : Problem) {K : ℕ → V3 ℝ} (hK : ∀ G < P.data.N, IsBasis (K G) (P.data.kpg G)) :
    (curlOp P).mat = (toCart P.data)ᴴ * curlCurl P.data K * toCart P.data := by
  refine mat_ext fun x y => ?_
  rw [← firstOf_padded x, ← firstOf_padded y, PairOp.dot]
  have e1 : inner P.data.N (pairs (padded x)) ((curlOp P).T (pairs (padded y))) =
      gridForm P.data.N P.epsInv (curlField P.data K (pairs (padded x))) (curlField P.data K (pairs (padded y))) := inner_curl (data_adjoint P) hK _ _ _
  rw [e1]
  unfold curlCurl
  rw [← mulVec_mulVec, ← mulVec_mulVec, dotProduct_mulVec, ← star_mulVec, ← mulVec_mulVec, ← mulVec_mulVec, toCart_mulVec, toCart_mulVec, dotProduct_mulVec,
    ← star_mulVec, curlM_vec, curlM_vec, gridM_vec]
  rfl

theorem muOp_one (P : Problem) (h : P.muInv = none) : (muOp P).mat = 1 := by
  refine mat_ext fun x y => ?_
  rw [one_mulVec, ← firstOf_padded x, ← firstOf_padded y, PairOp.dot, dot_firstOf]
  show inner P.data.N _ (bandMuinv P.data _) = _
  unfold bandMuinv
  rw [show P.data.muInv = none from h]

/-! ### The derivative -/

theorem curlM_deriv (W : ℕ → ℕ → ℂ) (N : ℕ) (K : ℕ → V3 ℝ) (u : V3 ℝ) (p q : Fin (N * 3)) :
    HasDerivAt (fun t : ℝ => curlM W N (fun G => K G + V3.smul t u) p q) (curlM W N (fun _ => u) p q) 0 := by
  have e : (fun t : ℝ => curlM W N (fun G => K G + V3.smul t u) p q) = fun t : ℝ => curlM W N K p q + (t : ℂ) * curlM W N (fun _ => u) p q := by
    funext t
    unfold curlM
    have : ∀ i j, crossM (K q.divNat + V3.smul t u) i j = crossM (K q.divNat) i j + (t : ℂ) * crossM u i j := by
      intro i j
      fin_cases i <;> fin_cases j <;> simp [crossM] <;> ring
    rw [this]
    ring
  rw [e]
  have h1 : HasDerivAt (fun t : ℝ => (t : ℂ)) 1 0 := by
    have := (hasDerivAt_id (0 : ℝ)).ofReal_comp
    simpa using this
  simpa using (h1.mul_const (curlM W N (fun _ => u) p q)).const_add (curlM W N K p q)

theorem star_deriv {m : ℕ} {A : ℝ → Matrix (Fin m) (Fin m) ℂ} {A' : Matrix (Fin m) (Fin m) ℂ} (h : ∀ p q, HasDerivAt (fun t => A t p q) (A' p q) 0)
    (p q : Fin m) : HasDerivAt (fun t => (A t)ᴴ p q) (A'ᴴ p q) 0 := (h q p).star

theorem waves (P : Problem) (hd : P.Rm.det ≠ 0) (u : V3 ℝ) :
    ∃ K : ℕ → V3 ℝ, ∀ t, ∀ G < P.data.N, IsBasis (K G + V3.smul t u) ((alongK P u t).data.kpg G) := by
  obtain ⟨K, hK, hw⟩ := data_isBasis P
  refine ⟨K, fun t G hG => ?_⟩
  obtain ⟨K', hK', hw'⟩ := data_isBasis (alongK P u t)
  have h1 := hK' G hG
  obtain ⟨x, hx, y, hy, z, hz, rfl⟩ := index3 (nx := P.nx) (ny := P.ny) (nz := P.nz) hG
  have h2 : (alongK P u t).wave x y z = P.wave x y z + V3.smul t u := by
    refine wave_shift P hd (alongK P u t).k (V3.smul t u) ⟨?_, ?_, ?_⟩ x y z <;> simp [alongK, V3.dot] <;> ring
  have h3 : K' ((x * P.ny + y) * P.nz + z) = K ((x * P.ny + y) * P.nz + z) + V3.smul t u := by
    rw [hw x hx y hy z hz, ← h2]
    exact hw' x hx y hy z hz
  rwa [h3] at h1

theorem band_nonneg (P : Problem) (hn : 0 < P.nfb) (hmu : P.muInv = none) (hε : ∀ r < P.nx * P.ny * P.nz, PSD (P.epsInv r)) {n : ℕ} {lam : ℝ}
    (hb : BandIs P.data n lam) : 0 ≤ lam := by
  obtain ⟨K, hK, -⟩ := data_isBasis P
  have h1 := isNth_of_band P hn hb
  rw [muOp_one P hmu, Matrix.one_mul, Matrix.mul_one] at h1
  obtain ⟨⟨f, hf, hev⟩, h2⟩ := h1
  have hn0 : 0 < n := by
    rcases Nat.eq_zero_or_pos n with rfl | h
    · exact absurd ⟨fun i => i.elim0, linearIndependent_empty_type, fun i => i.elim0⟩ (h2 (lam - 1) (by linarith))
    · exact h
  obtain ⟨mu, hle, he⟩ := hev ⟨0, hn0⟩
  have hne := hf.ne_zero ⟨0, hn0⟩
  set x := f ⟨0, hn0⟩
  have e1 : form (curlOp P).mat x = mu * form 1 x := by
    unfold form
    rw [he, dotProduct_smul, smul_eq_mul, Complex.re_ofReal_mul]
  have e2 : 0 ≤ form (curlOp P).mat x := by
    rw [form_curl P hK]
    exact gridForm_nonneg _ _ hε _
  have e3 : 0 < form 1 x := by
    rw [form_one]
    obtain ⟨i, hi⟩ := Function.ne_iff.1 hne
    exact Finset.sum_pos' (fun _ _ => Complex.normSq_nonneg _) ⟨i, Finset.mem_univ _, Complex.normSq_pos.2 hi⟩
  rw [e1] at e2
  exact (nonneg_of_mul_nonneg_left e2 e3).trans hle

/-- The derivative of a simple positive eigenvalue with the wavevector. -/
theorem wave_derivative (P : Problem) (hn : 0 < P.nfb) (hmu : P.muInv = none) (u : V3 ℝ) {K : ℕ → V3 ℝ}
    (hK : ∀ t, ∀ G < P.data.N, IsBasis (K G + V3.smul t u) ((alongK P u t).data.kpg G)) {lam : ℝ → ℝ} {n : ℕ}
    (hb : ∀ t, BandIs (alongK P u t).data n (lam t)) (hs : Simple P.data (lam 0)) (hl : 0 < lam 0) (hl0 : ∀ t, 0 ≤ lam t) {x : ℕ → ℂ × ℂ}
    (hx : Field.Spec.EigenBand P.data x (lam 0)) : HasDerivAt lam (2 * Velocity.Spec.velocityForm P.data K u x) 0 := by
  set T : ℝ → Matrix (Fin (P.data.N * 3)) (Fin (P.data.N * 3)) ℂ := fun t => curlCurl P.data (fun G => K G + V3.smul t u) with hT
  have hTh : ∀ t, (T t).IsHermitian := fun t => curlCurl_hermitian _ _
  set D0 := curlM P.data.Wf P.data.N K with hD0
  set D1 := curlM P.data.Wf P.data.N (fun _ => u) with hD1
  set E := gridM P.data.N P.data.epsInv with hE
  have z0 : (fun G => K G + V3.smul (0 : ℝ) u) = K := by funext G; ext <;> simp
  have dD : ∀ p q, HasDerivAt (fun t : ℝ => curlM P.data.Wf P.data.N (fun G => K G + V3.smul t u) p q) (D1 p q) 0 := curlM_deriv _ _ _ _
  have dE : ∀ p q, HasDerivAt (fun _ : ℝ => E p q) ((0 : Matrix (Fin (P.data.N * 3)) (Fin (P.data.N * 3)) ℂ) p q) 0 := fun p q => hasDerivAt_const _ _
  have dT := mul_deriv (A := fun t => (curlM P.data.Wf P.data.N fun G => K G + V3.smul t u)ᴴ * E) (mul_deriv (B := fun _ => E) (star_deriv dD) dE) dD
  have dB : ∀ p q, HasDerivAt (fun _ : ℝ => (1 : Matrix (Fin (P.data.N * 3)) (Fin (P.data.N * 3)) ℂ) p q)
    ((0 : Matrix (Fin (P.data.N * 3)) (Fin (P.data.N * 3)) ℂ) p q) 0 := fun p q => hasDerivAt_const _ _
  have hnth : ∀ t, IsNth (T t) 1 (n + P.data.N) (lam t) := by
    intro t
    have h1 := isNth_of_band (alongK P u t) hn (hb t)
    rw [muOp_one (alongK P u t) hmu, Matrix.one_mul, Matrix.mul_one] at h1
    refine nth_extend (J := toCart (alongK P u t).data) (hTh t) (toCart_unitary (hK t)) (curlCurl_transverse (d := (alongK P u t).data) (hK t))
      (curlOp_mat (alongK P u t) (hK t)) ?_ (hl0 t) h1
    show P.data.N * 3 = P.data.N * 2 + P.data.N
    ring
  have hK0 : ∀ G < P.data.N, IsBasis (K G) (P.data.kpg G) := by
    intro G hG
    have h1 := hK 0 G hG
    have h2 : (alongK P u 0).data = P.data := by simp [alongK]
    rw [h2] at h1
    have h3 := congrFun z0 G
    rwa [h3] at h1
  have hT0 : T 0 = curlCurl P.data K := by rw [hT]; dsimp only; rw [z0]
  set J := toCart P.data with hJ
  have uJ : Jᴴ * J = 1 := toCart_unitary hK0
  have tJ : T 0 * (J * Jᴴ) = T 0 := by rw [hT0]; exact curlCurl_transverse hK0
  have tJ' : J * Jᴴ * T 0 = T 0 := by
    have := congrArg conjTranspose tJ
    rwa [conjTranspose_mul, conjTranspose_mul, conjTranspose_conjTranspose, hTh 0] at this
  have hC : (curlOp P).mat = Jᴴ * T 0 * J := by rw [hT0]; exact curlOp_mat P hK0
  set X := pairs.symm x with hX
  set x0 : Fin (P.data.N * 2) → ℂ := firstOf (P.data.N * 2) X with hx0
  have hmode := eigen_isMode hn hx
  have hmat := (isMode_matrix P hn (lam 0) X).1 hmode
  rw [muOp_one P hmu] at hmat
  simp only [one_mulVec] at hmat
  have hev : (T 0).mulVec (J.mulVec x0) = (lam 0 : ℂ) • (1 : Matrix _ _ ℂ).mulVec (J.mulVec x0) := by
    have h1 := congrArg J.mulVec hmat.2
    rw [hC, Matrix.mulVec_smul, mulVec_mulVec, ← Matrix.mul_assoc, ← Matrix.mul_assoc, tJ', ← mulVec_mulVec] at h1
    rw [one_mulVec]
    exact h1
  have hnorm : form (1 : Matrix (Fin (P.data.N * 3)) (Fin (P.data.N * 3)) ℂ) (J.mulVec x0) = 1 := by
    unfold form
    rw [one_mulVec, star_mulVec, ← dotProduct_mulVec, mulVec_mulVec, uJ, one_mulVec, hx0, dot_firstOf, hX, pairs_apply_symm]
    have h1 := hx.norm
    unfold bandMuinv at h1
    rw [show P.data.muInv = none from hmu] at h1
    rw [h1]; rfl
  have hsim : ∀ y, (T 0).mulVec y = (lam 0 : ℂ) • (1 : Matrix _ _ ℂ).mulVec y → ∃ c : ℂ, y = c • J.mulVec x0 := by
    intro y hy
    rw [one_mulVec] at hy
    have hl1 : (lam 0 : ℂ) ≠ 0 := by exact_mod_cast hl.ne'
    have hJy : J.mulVec (Jᴴ.mulVec y) = y := by
      have h1 := congrArg (J * Jᴴ).mulVec hy
      rw [mulVec_mulVec, tJ', hy, Matrix.mulVec_smul] at h1
      have h2 := smul_right_injective _ hl1 h1
      rw [mulVec_mulVec]
      exact h2.symm
    by_cases hy0 : Jᴴ.mulVec y = 0
    · refine ⟨0, ?_⟩
      rw [← hJy, hy0, mulVec_zero, zero_smul]
    · obtain ⟨c, hc⟩ := hs X (padded (Jᴴ.mulVec y)) hmode ((isMode_matrix P hn (lam 0) _).2 (by
        rw [firstOf_padded, muOp_one P hmu]
        simp only [one_mulVec]
        refine ⟨hy0, ?_⟩
        rw [hC, mulVec_mulVec, Matrix.mul_assoc, Matrix.mul_assoc, tJ, ← mulVec_mulVec, hy, Matrix.mulVec_smul]))
      refine ⟨c, ?_⟩
      have h3 : Jᴴ.mulVec y = c • x0 := by
        rw [← firstOf_padded (Jᴴ.mulVec y)]
        funext i
        exact hc i i.2
      rw [← Matrix.mulVec_smul, ← h3, hJy]
  have key := hasDerivAt_nth hTh (fun _ => Matrix.PosDef.one) dT dB hnth hev hnorm hsim
  convert key using 1
  rw [z0, Matrix.mul_zero, add_zero, show form (0 : Matrix (Fin (P.data.N * 3)) (Fin (P.data.N * 3)) ℂ) (J.mulVec x0) = 0 by simp [form], mul_zero, sub_zero,
    form_add, ← hD0]
  have hx1 : J.mulVec x0 = vec P.data.N fun G => cart (P.data.kpg G) (x G) := by
    rw [hx0, toCart_mulVec, hX, pairs_apply_symm]
  have f1 : ∀ A B : Matrix (Fin (P.data.N * 3)) (Fin (P.data.N * 3)) ℂ, form (Aᴴ * E * B) (J.mulVec x0) =
      (star (A.mulVec (J.mulVec x0)) ⬝ᵥ E.mulVec (B.mulVec (J.mulVec x0))).re := by
    intro A B
    generalize J.mulVec x0 = z
    unfold form
    rw [star_mulVec, ← dotProduct_mulVec, mulVec_mulVec, mulVec_mulVec, Matrix.mul_assoc]
  rw [f1, f1, hx1, hD0, hD1, curlM_vec, curlM_vec, hE, gridM_vec, gridM_vec, gridForm_symm, Complex.conj_re]
  unfold Velocity.Spec.velocityForm
  rw [two_mul]
  rfl

end Mpb.Perturb

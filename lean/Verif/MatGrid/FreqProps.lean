import Verif.MatGrid.FreqLemmas
import Verif.Tensor.GridProps

/-! # Property C86: the gradient of a frequency with respect to the material grids -/

namespace Mpb.MatGrid
open Mpb.Field Mpb.Maxwell Mpb.Maxwell.Spec Mpb.Velocity Mpb.Tensor Spec Filter Topology

namespace Spec

/-- The conditions of C50 at a point: known materials, arrays of the right size, the topmost object not of the "nothing" material, the
combination of the grids differentiable there; and a dielectric constant that is not 0. -/
structure GoodPoint (g : Geom) (U : Mem) (objs : List Mat) (p : V3 ℝ) : Prop where
  objs : ∀ x ∈ g.look p, x.1 ∈ objs
  layers : ∀ mg q, (Mat.grid mg, q) ∈ g.look p → GoodLayer U (mg, q)
  dflt : ∀ mg, g.dflt = Mat.grid mg → GoodLayer U (mg, defaultPos g.noSize p g.size)
  notSelf : ∀ q rest, g.look p ≠ (Mat.self, q) :: rest
  smooth : ∀ mg ls us, gradGrid (g.look p) g.dflt = some mg → visit mg g.dflt (defaultPos g.noSize p g.size) (g.look p) = some ls →
    ls.mapM (gridVal U) = some us → Smooth mg.kind us
  nonzero : ∀ e, g.eps U p = some e → e ≠ 0

/-- The lattice has positive sizes, exactly the directions without size have one grid point, and libctl's `shift_to_unit_cell`
leaves points of the cell centred at the origin where they are. -/
structure Resolved (S : Shape) (g : Geom) : Prop where
  size : 0 < g.size.x ∧ 0 < g.size.y ∧ 0 < g.size.z
  nx : g.noSize.x = true ↔ S.nx = 1
  ny : g.noSize.y = true ↔ S.ny = 1
  nz : g.noSize.z = true ↔ S.nz = 1
  shift : ∀ p : V3 ℝ, -(g.size.x / 2) ≤ p.x → p.x < g.size.x / 2 → -(g.size.y / 2) ≤ p.y → p.y < g.size.y / 2 →
    -(g.size.z / 2) ≤ p.z → p.z < g.size.z / 2 → g.shift p = p

/-- A band followed as entry `i` of the grid `mg` changes: with the value `t` the structure is set up by `set_maxwell_dielectric` with a
mesh of one point, band `b` of the array `H t` solves the eigenproblem of the operators given to the eigensolver with eigenvalue
`lam t = ω²`. -/
structure GridFamily (S : Shape) (g : Geom) (U : Mem) (other : V3 ℝ → HMat × HMat) (md : MData) (a : DielArgs) (mg : MGrid) (i : ℕ)
    (t0 : ℝ) (D : ℝ → OpData) (K : ℕ → V3 ℝ) (p b : ℕ) (H : ℝ → ℕ → ℂ) (lam : ℝ → ℝ) : Prop where
  /-- only the dielectric function changes -/
  same : ∀ t, D t = withEps (D t0) (D t).epsInv
  grid : md.nx = S.nx ∧ md.ny = S.ny ∧ md.nz = S.nz
  points : (D t0).N = S.nx * S.ny * S.nz
  mesh : (getMesh a.ms).2 = 1
  diel : ∀ t, ∃ md', setDielectric md ⟨a.ms, a.Rl, a.moment, epsilonFunc g (setMem U mg.arr i t) other, a.mepsilon⟩ = .ok md' ∧
    (D t).epsInv = md'.heap md'.epsInv
  nfb : 0 < (D t0).nfb
  hb : b < p
  adjoint : AdjointTransforms (D t0)
  basis : ∀ G < (D t0).N, IsBasis (K G) ((D t0).kpg G)
  /-- `A x = ω² μ⁻¹ x`, in terms of the operators the eigensolver is given -/
  eigen : ∀ᶠ t in 𝓝 t0, ∀ bufs Xo R M, maxwellOperator (D t) p bufs (H t) Xo = some R → muinvOperator (D t) p bufs (H t) Xo = some M →
    ∀ G < (D t0).N, band p R b G = ((lam t : ℂ) * (band p M b G).1, (lam t : ℂ) * (band p M b G).2)
  /-- `x* μ⁻¹ x = 1` -/
  norm : ∀ bufs Xo M, muinvOperator (D t0) p bufs (H t0) Xo = some M → Maxwell.Spec.inner (D t0).N (band p (H t0) b) (band p M b) = 1
  /-- the amplitudes are continuous in `t` -/
  cont1 : ∀ G < (D t0).N, ContinuousAt (fun t => (band p (H t) b G).1) t0
  cont2 : ∀ G < (D t0).N, ContinuousAt (fun t => (band p (H t) b G).2) t0
  /-- the band has a positive frequency -/
  pos : 0 < lam t0

/-- The structures set up by `set_maxwell_dielectric` with a mesh of one point, as entry `i` of the grid `mg` changes. -/
structure GridTensors (S : Shape) (g : Geom) (U : Mem) (other : V3 ℝ → HMat × HMat) (md : MData) (a : DielArgs) (mg : MGrid) (i : ℕ)
    (e : ℝ → ℕ → HMat) : Prop where
  grid : md.nx = S.nx ∧ md.ny = S.ny ∧ md.nz = S.nz
  mesh : (getMesh a.ms).2 = 1
  diel : ∀ t, ∃ md', setDielectric md ⟨a.ms, a.Rl, a.moment, epsilonFunc g (setMem U mg.arr i t) other, a.mepsilon⟩ = .ok md' ∧
    e t = md'.heap md'.epsInv

/-- The derivative of the dielectric constant at `p` with respect to entry `i` of the grid (0 where the material is not a grid). -/
noncomputable def dEps (g : Geom) (U : Mem) (mg : MGrid) (i : ℕ) (p : V3 ℝ) : ℝ :=
  deriv (fun t => (g.eps (setMem U mg.arr i t) p).getD 0) ((U mg.arr).get i)

end Spec

theorem gridEps_none {U : Mem} {st : List (Mat × V3 ℝ)} {dflt : Mat} {pd : V3 ℝ} (h : gradGrid st dflt = none)
    (hs : ∀ q rest, st ≠ (Mat.self, q) :: rest) : gridEps U st dflt pd = none := by
  unfold gridEps
  cases st with
  | nil =>
    cases dflt with
    | grid m => simp [gradGrid] at h
    | _ => rfl
  | cons x rest =>
    obtain ⟨m, q⟩ := x
    cases m with
    | grid m => simp [gradGrid] at h
    | self => exact absurd rfl (hs q rest)
    | _ => rfl

/-- What one point adds. -/
theorem addPoint_deriv {g : Geom} {U : Mem} {objs : List Mat} (hda : DistinctArrays (getMaterialGrids objs g.dflt)) {p : V3 ℝ}
    (hp : GoodPoint g U objs p) (v : Arr) (hv : offset (getMaterialGrids objs g.dflt) ≤ v.len) (s : ℝ) :
    ∃ v', g.addPoint U (getMaterialGrids objs g.dflt) v p s = some v' ∧ v'.len = v.len ∧
      ∀ pre mg post, getMaterialGrids objs g.dflt = pre ++ mg :: post → ∀ i < mg.nx * mg.ny * mg.nz,
        v'.get (offset pre + i) = v.get (offset pre + i) + s * dEps g U mg i p ∧
        HasDerivAt (fun t => (g.eps (setMem U mg.arr i t) p).getD 0) (dEps g U mg i p) ((U mg.arr).get i) ∧
        ((∀ t, g.eps (setMem U mg.arr i t) p = none) ∨ ∃ f : ℝ → ℝ, ∀ t, g.eps (setMem U mg.arr i t) p = some (f t)) := by
  cases hg : gradGrid (g.look p) g.dflt with
  | none =>
    refine ⟨v, ?_, rfl, fun pre mg post he i hi => ?_⟩
    · unfold Geom.addPoint addGradientPoint
      rw [hg]
    · have hn : ∀ t, g.eps (setMem U mg.arr i t) p = none := fun t => gridEps_none hg hp.notSelf
      have hz : HasDerivAt (fun t => (g.eps (setMem U mg.arr i t) p).getD 0) 0 ((U mg.arr).get i) := by
        simp only [hn]
        exact hasDerivAt_const _ _
      have e : dEps g U mg i p = 0 := hz.deriv
      rw [e]
      exact ⟨by ring, hz, Or.inl hn⟩
  | some m =>
    obtain ⟨v', h1, h2, h3⟩ := C50_gradient_partial U objs g.dflt hda (g.look p) (defaultPos g.noSize p g.size) hp.objs hp.layers hp.dflt
      hp.notSelf m hg (fun ls us => hp.smooth m ls us hg) v hv s
    refine ⟨v', h1, h2, fun pre mg post he i hi => ?_⟩
    obtain ⟨f, f', hf, hd, hs⟩ := h3 pre mg post he i hi
    have hf' : ∀ t, g.eps (setMem U mg.arr i t) p = some (f t) := hf
    have hd' : HasDerivAt (fun t => (g.eps (setMem U mg.arr i t) p).getD 0) f' ((U mg.arr).get i) := by
      simp only [hf', Option.getD_some]
      exact hd
    have e : dEps g U mg i p = f' := hd'.deriv
    rw [e]
    exact ⟨hs, hd', Or.inr ⟨f, hf'⟩⟩

theorem doubled_false {S : Shape} (h : S.inv = false) (j : ℤ) : S.doubled j = false := by
  unfold Shape.doubled; rw [h]; rfl

/-- What the loop adds (complex build). -/
theorem gradLoop_deriv {S : Shape} (hinv : S.inv = false) {g : Geom} {U : Mem} {objs : List Mat}
    (hda : DistinctArrays (getMaterialGrids objs g.dflt)) (j0 : ℤ) (Esqr : ℕ → ℝ) (scale : ℝ) :
    ∀ (l : List Visit), (∀ q ∈ l, GoodPoint g U objs (pointPos S g.size q.pt)) → ∀ (v : Arr), offset (getMaterialGrids objs g.dflt) ≤ v.len →
    ∃ v', l.foldlM (gradStep S g U (getMaterialGrids objs g.dflt) j0 Esqr scale) v = some v' ∧ v'.len = v.len ∧
      ∀ pre mg post, getMaterialGrids objs g.dflt = pre ++ mg :: post → ∀ i < mg.nx * mg.ny * mg.nz,
        v'.get (offset pre + i) = v.get (offset pre + i) + (l.map fun q => Esqr q.idx * scale * dEps g U mg i (pointPos S g.size q.pt)).sum := by
  intro l
  induction l with
  | nil => intro _ v _; exact ⟨v, rfl, rfl, fun pre mg post _ i _ => by simp⟩
  | cons q l ih =>
    intro hl v hv
    obtain ⟨w, h1, h2, h3⟩ := addPoint_deriv hda (hl q (by simp)) v hv (Esqr q.idx * scale)
    obtain ⟨v', h4, h5, h6⟩ := ih (fun q hq => hl q (by simp [hq])) w (by rw [h2]; exact hv)
    refine ⟨v', ?_, by rw [h5, h2], fun pre mg post he i hi => ?_⟩
    · rw [List.foldlM_cons]
      have e : gradStep S g U (getMaterialGrids objs g.dflt) j0 Esqr scale v q = some w := by
        unfold gradStep
        rw [h1]
        simp only [Option.bind_eq_bind, Option.bind_some, doubled_false hinv, Bool.false_eq_true, if_false]
      rw [e]
      exact h4
    · rw [h6 pre mg post he i hi, (h3 pre mg post he i hi).1, List.map_cons, List.sum_cons]
      ring

/-- The dielectric function is evaluated at the grid points of the gradient. -/
theorem pos_eq {S : Shape} (hS : S.Ok) {g : Geom} (h : Resolved S g) {q : ℕ × ℕ × ℕ} (h1 : q.1 < S.nx) (h2 : q.2.1 < S.ny) (h3 : q.2.2 < S.nz) :
    g.shift (epsPos g ⟨q.1 * (1 / S.nx), q.2.1 * (1 / S.ny), q.2.2 * (1 / S.nz)⟩) = pointPos S g.size q := by
  have aux : ∀ (n c : ℕ) (b : Bool) (L : ℝ), 0 < n → c < n → 0 < L → (b = true ↔ n = 1) →
      (if b then 0 else ((c : ℝ) * (1 / n) - 1 / 2) * L) = c * (L / n) - (if n ≤ 1 then 0 else L * (1 / 2)) ∧
      -(L / 2) ≤ (if b then 0 else ((c : ℝ) * (1 / n) - 1 / 2) * L) ∧ (if b then 0 else ((c : ℝ) * (1 / n) - 1 / 2) * L) < L / 2 := by
    intro n c b L hn hc hL hb
    have hn' : (0 : ℝ) < n := by exact_mod_cast hn
    have hc' : (c : ℝ) < n := by exact_mod_cast hc
    cases b with
    | true =>
      have : n = 1 := hb.1 rfl
      subst this
      have : c = 0 := by omega
      subst this
      refine ⟨by simp, ?_, ?_⟩ <;> simp only [if_true] <;> linarith
    | false =>
      have hne : ¬ n ≤ 1 := fun hle => by
        have : n = 1 := by omega
        simpa using hb.2 this
      rw [if_neg hne]
      simp only [Bool.false_eq_true, if_false]
      have hc0 : (0 : ℝ) ≤ c := Nat.cast_nonneg _
      have e : ((c : ℝ) * (1 / n) - 1 / 2) * L = c * L / n - L / 2 := by field_simp
      have hq : 0 ≤ (c : ℝ) * L / n := by positivity
      have hq2 : (c : ℝ) * L / n < L := by
        rw [div_lt_iff₀ hn']
        nlinarith
      refine ⟨by field_simp, ?_, ?_⟩ <;> rw [e] <;> linarith
  obtain ⟨a1, a2, a3⟩ := aux S.nx q.1 g.noSize.x g.size.x hS.nx h1 h.size.1 h.nx
  obtain ⟨b1, b2, b3⟩ := aux S.ny q.2.1 g.noSize.y g.size.y hS.ny h2 h.size.2.1 h.ny
  obtain ⟨c1, c2, c3⟩ := aux S.nz q.2.2 g.noSize.z g.size.z hS.nz h3 h.size.2.2 h.nz
  rw [h.shift _ a2 a3 b2 b3 c2 c3]
  unfold epsPos pointPos
  rw [a1, b1, c1]

/-- The squared field. -/
theorem eSquared_eq (d : OpData) (K : ℕ → V3 ℝ) (hK : ∀ G < d.N, IsBasis (K G) (d.kpg G)) (p : ℕ) (H W0 buf buf2 : ℕ → ℂ) (freqs : ℕ → ℝ)
    (Vol : ℝ) (b : ℕ) {r : ℕ} (hr : r < d.N) :
    eSquared d p H W0 buf buf2 freqs Vol b r =
      ((if freqs b ≠ 0 then -1 / freqs b else -1) / Real.sqrt Vol) * ((if freqs b ≠ 0 then -1 / freqs b else -1) / Real.sqrt Vol) *
      (herm ((d.epsInv r).mulVec (curlField d K (bandMuinv d (band p H b)) r)) ((d.epsInv r).mulVec (curlField d K (bandMuinv d (band p H b)) r))).re := by
  unfold eSquared
  rw [(C42_in_place _ _ _ _).1 r hr]
  have hv := getD_vec d K hK p H W0 buf buf2 freqs Vol b hr
  generalize ((if freqs b ≠ 0 then -1 / freqs b else -1) / Real.sqrt Vol) = s at *
  have e : ∀ c < 3, eFromD d.N 1 d.epsInv (getD d p H W0 buf buf2 freqs Vol b) (3 * r + c) =
      ((d.epsInv r).mulVec (cvec (toReals (getD d p H W0 buf buf2 freqs Vol b)) r)).get c := by
    intro c hc
    have := eFromD_apply (n := d.N) (num := 1) d.epsInv (getD d p H W0 buf buf2 freqs Vol b) hr (b := 0) (by omega) c hc
    simp only [mul_one, add_zero] at this
    rw [cvec_toReals]
    exact this
  have e2 : cvec (toReals (eFromD d.N 1 d.epsInv (getD d p H W0 buf buf2 freqs Vol b))) r =
      (d.epsInv r).mulVec (cvec (toReals (getD d p H W0 buf buf2 freqs Vol b)) r) := by
    rw [cvec_toReals]
    have e0 := e 0 (by omega)
    rw [add_zero] at e0
    rw [e0, e 1 (by omega), e 2 (by omega)]
    rfl
  have e3 : ∀ u, energyField 'c' d.epsInv d.muInv r u = u := by
    intro u
    unfold energyField
    rw [if_neg (by decide), if_neg (by decide)]
  rw [e3, e2, hv, mulVec_smul, herm_smul, Complex.re_ofReal_mul]

theorem setMem_self (U : Mem) (a i : ℕ) : setMem U a i ((U a).get i) = U := by
  unfold setMem
  have : setEntry (U a) i ((U a).get i) = U a := by
    unfold setEntry
    simp
  rw [this, Function.update_eq_self]

/-- The tensors of a family at a grid point. -/
theorem family_eps {S : Shape} (hS : S.Ok) {g : Geom} (hR : Resolved S g) {U : Mem} {other : V3 ℝ → HMat × HMat} {md : MData} {a : DielArgs}
    {mg : MGrid} {i : ℕ} {e : ℝ → ℕ → HMat} (h : GridTensors S g U other md a mg i e) {q : ℕ × ℕ × ℕ} (h1 : q.1 < S.nx) (h2 : q.2.1 < S.ny)
    (h3 : q.2.2 < S.nz) (t : ℝ) :
    e t ((q.1 * S.ny + q.2.1) * S.nz + q.2.2) =
      match g.eps (setMem U mg.arr i t) (pointPos S g.size q) with
      | some e => (isoEps e).2
      | none => (other (pointPos S g.size q)).2 := by
  obtain ⟨md', hm, he⟩ := h.diel t
  obtain ⟨f, hf, -, -, -, -, -, -, e4, -⟩ := setDielectric_ok hm
  obtain ⟨g1, g2, g3⟩ := h.grid
  obtain ⟨v1, v2⟩ := hf q.1 q.2.1 q.2.2 (by rw [g1]; exact h1) (by rw [g2]; exact h2) (by rw [g3]; exact h3)
  rw [he, e4, ← g2, ← g3, v2]
  unfold voxel at v1
  dsimp only at v1
  rw [if_pos h.mesh, g1, g2, g3] at v1
  rw [← Res.ok_inj v1]
  unfold epsilonFunc
  rw [pos_eq hS hR h1 h2 h3]
  cases g.eps (setMem U mg.arr i t) (pointPos S g.size q) <;> rfl

theorem herm_iso (w : ℝ) (a c : V3 ℂ) : herm a ((⟨w, w, w, 0, 0, 0⟩ : HMat).mulVec c) = (w : ℂ) * herm a c := by
  apply Complex.ext <;> simp [herm, HMat.mulVec] <;> ring

theorem herm_iso2 (w : ℝ) (c : V3 ℂ) : herm ((⟨w, w, w, 0, 0, 0⟩ : HMat).mulVec c) ((⟨w, w, w, 0, 0, 0⟩ : HMat).mulVec c) = ((w * w : ℝ) : ℂ) * herm c c := by
  apply Complex.ext <;> simp [herm, HMat.mulVec] <;> ring

/-- The weights by which the tensors change, and the sum that the gradient adds. -/
theorem grid_weights (S : Shape) (hS : S.Ok) (hinv : S.inv = false) (g : Geom) (hR : Resolved S g) (U : Mem) (objs : List Mat)
    (hda : DistinctArrays (getMaterialGrids objs g.dflt))
    (hgood : ∀ q : ℕ × ℕ × ℕ, q.1 < S.nx → q.2.1 < S.ny → q.2.2 < S.nz → GoodPoint g U objs (pointPos S g.size q))
    (d : OpData) (p b : ℕ) (H W0 buf buf2 : ℕ → ℂ) (freqs : ℕ → ℝ) (Vol : ℝ) (hV : 0 < Vol) (scalegrad : ℝ) {pre post : List MGrid} {mg : MGrid}
    (he : getMaterialGrids objs g.dflt = pre ++ mg :: post) {i : ℕ} (hi : i < mg.nx * mg.ny * mg.nz) {other : V3 ℝ → HMat × HMat} {md : MData}
    {a : DielArgs} {e : ℝ → ℕ → HMat} (hF : GridTensors S g U other md a mg i e) (hD : e ((U mg.arr).get i) = d.epsInv)
    (hN : d.N = S.nx * S.ny * S.nz) {K : ℕ → V3 ℝ} (hK : ∀ G < d.N, IsBasis (K G) (d.kpg G)) :
    ∃ (w : Visit → ℝ → ℝ) (w' : Visit → ℝ), (visits S).map Visit.idx = List.range d.N ∧
      (∀ q ∈ visits S, HasDerivAt (w q) (w' q) ((U mg.arr).get i)) ∧
      (∀ q ∈ visits S, ∀ t, ∀ x c : V3 ℂ, herm x ((e t q.idx).mulVec c) =
        herm x ((d.epsInv q.idx).mulVec c) + ((w q t - w q ((U mg.arr).get i) : ℝ) : ℂ) * herm x c) ∧
      ∀ om, 0 < om → freqs b = om →
        ((visits S).map fun q => eSquared d p H W0 buf buf2 freqs Vol b q.idx * (scalegrad * (-freqs b / 2) * (Vol / d.N)) *
            dEps g U mg i (pointPos S g.size q.pt)).sum =
          scalegrad * (1 / (d.N : ℝ) * ((visits S).map fun q => w' q * (herm (curlField d K (bandMuinv d (band p H b)) q.idx)
            (curlField d K (bandMuinv d (band p H b)) q.idx)).re).sum / (2 * om)) := by
  have hq : ∀ q ∈ visits S, q.pt.1 < S.nx ∧ q.pt.2.1 < S.ny ∧ q.pt.2.2 < S.nz := fun q hq => visit_in_cell hS hq
  set t0 := (U mg.arr).get i with ht0
  have hidx : (visits S).map Visit.idx = List.range d.N := by
    rw [visits_idx hS (fun h => by rw [hinv] at h; cases h), hN]
    unfold Shape.outSize
    rw [if_neg (by rw [hinv]; simp)]
  have haddr : ∀ q ∈ visits S, q.idx = (q.pt.1 * S.ny + q.pt.2.1) * S.nz + q.pt.2.2 := by
    intro q hqm
    rw [visits_full (by rw [hinv]; simp)] at hqm
    obtain ⟨t, -, rfl⟩ := List.mem_map.1 hqm
    rfl
  have hlt : ∀ q ∈ visits S, q.idx < d.N := by
    intro q hqm
    have : q.idx ∈ (visits S).map Visit.idx := List.mem_map_of_mem hqm
    rw [hidx] at this
    exact List.mem_range.1 this
  -- the dielectric constant at the grid points
  have hder : ∀ q ∈ visits S, HasDerivAt (fun t => (g.eps (setMem U mg.arr i t) (pointPos S g.size q.pt)).getD 0)
      (dEps g U mg i (pointPos S g.size q.pt)) t0 ∧ ((∀ t, g.eps (setMem U mg.arr i t) (pointPos S g.size q.pt) = none) ∨
      ∃ f : ℝ → ℝ, ∀ t, g.eps (setMem U mg.arr i t) (pointPos S g.size q.pt) = some (f t)) := by
    intro q hqm
    obtain ⟨w, -, -, hw⟩ := addPoint_deriv hda (hgood q.pt (hq q hqm).1 (hq q hqm).2.1 (hq q hqm).2.2)
      ⟨offset (getMaterialGrids objs g.dflt), fun _ => 0⟩ le_rfl 0
    exact (hw pre mg post he i hi).2
  -- the inverse dielectric constant, 0 where the material is not a grid
  set E : Visit → ℝ → ℝ := fun q t => (g.eps (setMem U mg.arr i t) (pointPos S g.size q.pt)).getD 0 with hE
  set w : Visit → ℝ → ℝ := fun q t => 1 / E q t with hw
  set w' : Visit → ℝ := fun q => -dEps g U mg i (pointPos S g.size q.pt) / (E q t0) ^ 2 with hw'
  have hnz : ∀ q ∈ visits S, (∃ f : ℝ → ℝ, ∀ t, g.eps (setMem U mg.arr i t) (pointPos S g.size q.pt) = some (f t)) → E q t0 ≠ 0 := by
    intro q hqm ⟨f, hf⟩
    simp only [hE, hf, Option.getD_some]
    refine (hgood q.pt (hq q hqm).1 (hq q hqm).2.1 (hq q hqm).2.2).nonzero _ ?_
    have := hf t0
    rwa [ht0, setMem_self, ← ht0] at this
  have hwd : ∀ q ∈ visits S, HasDerivAt (w q) (w' q) t0 := by
    intro q hqm
    obtain ⟨a1, a2⟩ := hder q hqm
    rcases a2 with hn | hs
    · have e0 : E q = fun _ => 0 := by funext t; simp only [hE, hn, Option.getD_none]
      have e1 : dEps g U mg i (pointPos S g.size q.pt) = 0 := by
        refine a1.unique ?_
        have : (fun t => (g.eps (setMem U mg.arr i t) (pointPos S g.size q.pt)).getD 0) = fun _ => (0 : ℝ) := e0
        rw [this]
        exact hasDerivAt_const _ _
      simp only [hw, hw', e0, e1]
      simpa using hasDerivAt_const t0 (0 : ℝ)
    · have := a1.inv (hnz q hqm hs)
      simp only [hw, hw', one_div]
      exact this
  have hes : ∀ q ∈ visits S, ∀ t, ∀ x c : V3 ℂ, herm x ((e t q.idx).mulVec c) =
      herm x ((e t0 q.idx).mulVec c) + ((w q t - w q t0 : ℝ) : ℂ) * herm x c := by
    intro q hqm t x c
    have hc := hq q hqm
    rw [haddr q hqm, family_eps hS hR hF hc.1 hc.2.1 hc.2.2, family_eps hS hR hF hc.1 hc.2.1 hc.2.2]
    rcases (hder q hqm).2 with hn | ⟨f, hf⟩
    · simp only [hw, hE, hn, Option.getD_none]
      simp
    · simp only [hw, hE, hf, Option.getD_some, isoEps, herm_iso]
      push_cast
      ring
  refine ⟨w, w', hidx, hwd, fun q hqm t x c => by rw [← hD]; exact hes q hqm t x c, fun om hom hfb => ?_⟩
  rw [show scalegrad * (1 / (d.N : ℝ) * ((visits S).map fun q => w' q * (herm (curlField d K (bandMuinv d (band p H b)) q.idx)
      (curlField d K (bandMuinv d (band p H b)) q.idx)).re).sum / (2 * om)) =
      (scalegrad / (d.N : ℝ) / (2 * om)) * ((visits S).map fun q => w' q * (herm (curlField d K (bandMuinv d (band p H b)) q.idx)
      (curlField d K (bandMuinv d (band p H b)) q.idx)).re).sum by ring, ← List.sum_map_mul_left]
  congr 1
  apply List.map_congr_left
  intro q hqm
  rw [eSquared_eq d K hK p H W0 buf buf2 freqs Vol b (hlt q hqm), hfb, if_pos hom.ne']
  have hc := hq q hqm
  have hep := family_eps hS hR hF hc.1 hc.2.1 hc.2.2 t0
  rw [← haddr q hqm, hD] at hep
  have hvol : Real.sqrt Vol * Real.sqrt Vol = Vol := Real.mul_self_sqrt hV.le
  have hvp : 0 < Real.sqrt Vol := Real.sqrt_pos.2 hV
  rcases (hder q hqm).2 with hn | ⟨f, hfe⟩
  · have e1 : dEps g U mg i (pointPos S g.size q.pt) = 0 := by
      refine (hder q hqm).1.unique ?_
      have : (fun t => (g.eps (setMem U mg.arr i t) (pointPos S g.size q.pt)).getD 0) = fun _ => (0 : ℝ) := by
        funext t; simp only [hn, Option.getD_none]
      rw [this]
      exact hasDerivAt_const _ _
    simp only [hw', e1]
    ring
  · have hz := hnz q hqm ⟨f, hfe⟩
    rw [hfe t0] at hep
    have hEq : E q t0 = f t0 := by simp only [hE, hfe, Option.getD_some]
    rw [hEq] at hz
    simp only [isoEps] at hep
    rw [hep, herm_iso2, Complex.re_ofReal_mul]
    simp only [hw', hEq]
    generalize (herm (curlField d K (bandMuinv d (band p H b)) q.idx) (curlField d K (bandMuinv d (band p H b)) q.idx)).re = X
    generalize dEps g U mg i (pointPos S g.size q.pt) = Y
    generalize f t0 = e at *
    have : -1 / om / Real.sqrt Vol * (-1 / om / Real.sqrt Vol) = 1 / (om * om * Vol) := by
      rw [show om * om * Vol = om * om * (Real.sqrt Vol * Real.sqrt Vol) by rw [hvol]]
      field_simp
    rw [this]
    field_simp

/-- C86 (partial: complex-scalar build, one process; a mesh of one point per pixel; the conditions of C50 at every grid point; directions
with a size have more than one grid point).  The numbers that the call for band `b + 1` adds are `scalegrad` times the exact derivatives
of the frequency of the band: for every grid of the geometry, every value of it, and every way of following the band as that
value changes.  Missing: pixels with an averaged dielectric tensor, the inversion-symmetric build (`C86_half_refuted`), directions with a
size and one grid point (`C86_flat_refuted`), dielectric functions allowed to be negative (`C86_negative_refuted`). -/
theorem C86_gradient_partial (S : Shape) (hS : S.Ok) (hinv : S.inv = false) (g : Geom) (hR : Resolved S g) (U : Mem) (objs : List Mat)
    (hda : DistinctArrays (getMaterialGrids objs g.dflt))
    (hgood : ∀ q : ℕ × ℕ × ℕ, q.1 < S.nx → q.2.1 < S.ny → q.2.2 < S.nz → GoodPoint g U objs (pointPos S g.size q))
    (d : OpData) (p b numBands : ℕ) (H W0 buf buf2 : ℕ → ℂ) (freqs : ℕ → ℝ) (Vol : ℝ) (hV : 0 < Vol) (hb : b < numBands) (j0 : ℤ)
    (v : Arr) (hv : offset (getMaterialGrids objs g.dflt) ≤ v.len) (scalegrad : ℝ) :
    ∃ v', addGradient S g U (getMaterialGrids objs g.dflt) d p H W0 buf buf2 freqs Vol numBands j0 v scalegrad (b + 1) = some v' ∧
      v'.len = v.len ∧
      ∀ pre mg post, getMaterialGrids objs g.dflt = pre ++ mg :: post → ∀ i < mg.nx * mg.ny * mg.nz,
        ∀ other md a D K H' lam, GridFamily S g U other md a mg i ((U mg.arr).get i) D K p b H' lam →
          D ((U mg.arr).get i) = d → H' ((U mg.arr).get i) = H → freqs b = Real.sqrt (lam ((U mg.arr).get i)) →
          ∃ f', HasDerivAt (fun t => Real.sqrt (lam t)) f' ((U mg.arr).get i) ∧
            v'.get (offset pre + i) = v.get (offset pre + i) + scalegrad * f' := by
  have hq : ∀ q ∈ visits S, q.pt.1 < S.nx ∧ q.pt.2.1 < S.ny ∧ q.pt.2.2 < S.nz := fun q hq => visit_in_cell hS hq
  obtain ⟨v', h1, h2, h3⟩ := gradLoop_deriv hinv hda j0 (eSquared d p H W0 buf buf2 freqs Vol b) (scalegrad * (-freqs b / 2) * (Vol / d.N))
    (visits S) (fun q hqm => hgood q.pt (hq q hqm).1 (hq q hqm).2.1 (hq q hqm).2.2) v hv
  refine ⟨v', ?_, h2, ?_⟩
  · unfold addGradient gradLoop
    rw [if_pos (by omega)]
    simp only [Nat.add_sub_cancel]
    exact h1
  intro pre mg post he i hi other md a D K H' lam hF hD hH hf
  set t0 := (U mg.arr).get i with ht0
  have hT : GridTensors S g U other md a mg i (fun t => (D t).epsInv) := ⟨hF.grid, hF.mesh, hF.diel⟩
  obtain ⟨w, w', hidx, hwd, hes, hsum⟩ := grid_weights S hS hinv g hR U objs hda hgood d p b H W0 buf buf2 freqs Vol hV scalegrad he hi hT
    (by show (D t0).epsInv = _; rw [hD]) (by rw [← hD]; exact hF.points) (K := K) (by rw [← hD]; exact hF.basis)
  have heig : ∀ᶠ t in 𝓝 t0, ∀ G < (D t0).N, bandMaxwell (D t) (band p (H' t) b) G =
      ((lam t : ℂ) * (bandMuinv (D t) (band p (H' t) b) G).1, (lam t : ℂ) * (bandMuinv (D t) (band p (H' t) b) G).2) := by
    filter_upwards [hF.eigen] with t ht G hG
    have hNt : (D t).N = (D t0).N := by rw [hF.same t]; rfl
    have hn : 0 < (D t).nfb := by rw [hF.same t]; exact hF.nfb
    obtain ⟨R, hR, r1, -⟩ := C04_bands (D t) p hn (fun _ _ => 0) (H' t) (fun _ => 0)
    obtain ⟨M, hM, r2, -⟩ := C04_muinv_bands (D t) p hn (fun _ _ => 0) (H' t) (fun _ => 0)
    have := ht _ _ R M hR hM G hG
    rwa [r1 b hF.hb G (by rw [hNt]; exact hG), r2 b hF.hb G (by rw [hNt]; exact hG)] at this
  have hnorm : Maxwell.Spec.inner (D t0).N (band p (H' t0) b) (bandMuinv (D t0) (band p (H' t0) b)) = 1 := by
    obtain ⟨M, hM, r2, -⟩ := C04_muinv_bands (D t0) p hF.nfb (fun _ _ => 0) (H' t0) (fun _ => 0)
    rw [← hF.norm _ _ M hM]
    exact inner_congr (fun _ _ => rfl) (fun G hG => (r2 b hF.hb G hG).symm)
  have hlam := eps_deriv D t0 K (fun t => band p (H' t) b) lam hF.same hF.adjoint hF.basis heig hnorm hF.cont1 hF.cont2 (visits S) Visit.idx
    (by rw [hD]; exact hidx) w w' hwd (by rw [hD]; exact hes)
  refine ⟨_, hlam.sqrt hF.pos.ne', ?_⟩
  rw [h3 pre mg post he i hi, hsum _ (Real.sqrt_pos.2 hF.pos) hf, hD, hH]

/-- C86, the numbers printed by `print-material-grids-gradient` (partial, as `C86_gradient_partial`): there are as many as material-grid
values, and each is the derivative of the frequency of the band. -/
theorem C86_printed_partial (S : Shape) (hS : S.Ok) (hinv : S.inv = false) (g : Geom) (hR : Resolved S g) (U : Mem) (objs : List Mat)
    (hda : DistinctArrays (getMaterialGrids objs g.dflt))
    (hgood : ∀ q : ℕ × ℕ × ℕ, q.1 < S.nx → q.2.1 < S.ny → q.2.2 < S.nz → GoodPoint g U objs (pointPos S g.size q))
    (d : OpData) (p b numBands : ℕ) (H W0 buf buf2 : ℕ → ℂ) (freqs : ℕ → ℝ) (Vol : ℝ) (hV : 0 < Vol) (hb : b < numBands) (j0 : ℤ) :
    ∃ v', printedGradient S g U objs d p H W0 buf buf2 freqs Vol numBands j0 (b + 1) = some v' ∧
      v'.len = offset (getMaterialGrids objs g.dflt) ∧
      ∀ pre mg post, getMaterialGrids objs g.dflt = pre ++ mg :: post → ∀ i < mg.nx * mg.ny * mg.nz,
        ∀ other md a D K H' lam, GridFamily S g U other md a mg i ((U mg.arr).get i) D K p b H' lam →
          D ((U mg.arr).get i) = d → H' ((U mg.arr).get i) = H → freqs b = Real.sqrt (lam ((U mg.arr).get i)) →
          HasDerivAt (fun t => Real.sqrt (lam t)) (v'.get (offset pre + i)) ((U mg.arr).get i) := by
  unfold printedGradient
  dsimp only
  obtain ⟨v', h1, h2, h3⟩ := C86_gradient_partial S hS hinv g hR U objs hda hgood d p b numBands H W0 buf buf2 freqs Vol hV hb j0
    ⟨ntotAll (getMaterialGrids objs g.dflt), fun _ => 0⟩ (by rw [C51_total]) 1
  refine ⟨v', h1, by rw [h2, C51_total], ?_⟩
  intro pre mg post he i hi other md a D K H' lam hF hD hH hf
  obtain ⟨f', hf', hv⟩ := h3 pre mg post he i hi other md a D K H' lam hF hD hH hf
  rw [hv]
  simpa using hf'

end Mpb.MatGrid

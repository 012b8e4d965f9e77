import Verif.Field.FixPhaseModel
import Verif.Core.Mem

/-!
# Property C43: `fix-field-phase`
-/

namespace Mpb.Field.FixPhase

/-! ## Lemmas -/

theorem sqSum_eq (f : List ℂ) : sqSum f = (f.map fun z => z * z).sum := by
  unfold sqSum
  congr 1
  apply List.map_congr_left
  intro z _
  apply Complex.ext <;> simp <;> ring

theorem phase0_eq (s : ℂ) : phase0 s = Complex.exp (((0.5 * Complex.arg (starRingEnd ℂ s) : ℝ) : ℂ) * Complex.I) := by
  unfold phase0
  have : (⟨s.re, -s.im⟩ : ℂ) = starRingEnd ℂ s := by apply Complex.ext <;> simp
  simp only [this]
  apply Complex.ext
  · rw [Complex.exp_ofReal_mul_I_re]
  · rw [Complex.exp_ofReal_mul_I_im]

/-- `phase² |S| = conj S`. -/
theorem phase0_sq (s : ℂ) : phase0 s * phase0 s * ‖s‖ = starRingEnd ℂ s := by
  rw [phase0_eq, ← Complex.exp_add]
  have h := Complex.norm_mul_exp_arg_mul_I (starRingEnd ℂ s)
  rw [RCLike.norm_conj] at h
  rw [mul_comm]
  refine Eq.trans ?_ h
  congr 2
  push_cast
  ring

theorem phase0_norm (s : ℂ) : ‖phase0 s‖ = 1 := by
  rw [phase0_eq]; exact Complex.norm_exp_ofReal_mul_I _

/-- Re(u z)² = (|z|² + Re(u² z²))/2 for unit u. -/
theorem re_sq (u z : ℂ) (hu : ‖u‖ = 1) : (u * z).re ^ 2 = (Complex.normSq z + (u * u * (z * z)).re) / 2 := by
  have h : u.re * u.re + u.im * u.im = 1 := by
    have := Complex.normSq_eq_norm_sq u
    rw [hu, Complex.normSq_apply] at this
    linarith
  simp only [Complex.mul_re, Complex.mul_im, Complex.normSq_apply]
  nlinarith [h]

/-- The quantity that is maximised: the sum of the squared real parts after multiplying by `u`. -/
noncomputable def reSq (u : ℂ) (f : List ℂ) : ℝ := (f.map fun z => (u * z).re ^ 2).sum

theorem reSq_eq (u : ℂ) (hu : ‖u‖ = 1) (f : List ℂ) :
    reSq u f = ((f.map Complex.normSq).sum + (u * u * sqSum f).re) / 2 := by
  rw [sqSum_eq]
  unfold reSq
  induction f with
  | nil => simp
  | cons z f ih =>
    simp only [List.map_cons, List.sum_cons]
    rw [ih, re_sq u z hu, mul_add, Complex.add_re]
    ring

/-- All the components of the field, in any distribution over processes. -/
def comps (ps : List PProc) : List ℂ := ps.flatMap PProc.f

theorem total_sqSum (ps : List PProc) : (ps.map fun p => sqSum p.f).sum = sqSum (comps ps) := by
  unfold comps
  simp only [sqSum_eq]
  induction ps with
  | nil => rfl
  | cons p ps ih => simp only [List.map_cons, List.sum_cons, List.flatMap_cons, List.map_append, List.sum_append, ih]

theorem maxloc_mem : ∀ (l : List (ℕ × ℤ)), (∀ x ∈ l, x.2 = 1 ∨ x.2 = -1) → (maxloc l).2 = 1 ∨ (maxloc l).2 = -1 := by
  intro l h
  cases l with
  | nil => exact Or.inl rfl
  | cons a l =>
    have ha := h a List.mem_cons_self
    have hl : ∀ x ∈ l, x.2 = 1 ∨ x.2 = -1 := fun x hx => h x (List.mem_cons_of_mem _ hx)
    clear h
    change (l.foldl maxlocOp a).2 = 1 ∨ (l.foldl maxlocOp a).2 = -1
    induction l generalizing a with
    | nil => exact ha
    | cons b l ih =>
      rw [List.foldl_cons]
      refine ih _ ?_ (fun x hx => hl x (List.mem_cons_of_mem _ hx))
      have hb := hl b List.mem_cons_self
      unfold maxlocOp
      split_ifs
      · exact ha
      · exact hb
      · simp only
        rcases ha with h1 | h1 <;> rcases hb with h2 | h2 <;> rw [h1, h2] <;> simp

theorem localSign_pm (m : ℝ) (nxz y0 : ℕ) (rs : List ℝ) : (localSign m nxz y0 rs).2 = 1 ∨ (localSign m nxz y0 rs).2 = -1 := by
  unfold localSign
  split
  · simp only
    split_ifs
    · exact Or.inr rfl
    · exact Or.inl rfl
  · exact Or.inl rfl

theorem globalSign_pm (inv : Bool) (nxz : ℕ) (ph : ℂ) (ps : List PProc) :
    globalSign inv nxz ph ps = 1 ∨ globalSign inv nxz ph ps = -1 := by
  unfold globalSign
  apply maxloc_mem
  intro x hx
  obtain ⟨p, -, rfl⟩ := List.mem_map.1 hx
  exact localSign_pm _ _ _ _

theorem fixPhase_eq (inv : Bool) (nxz : ℕ) (ps : List PProc) :
    fixPhase inv nxz ps = basePhase inv ps * (globalSign inv nxz (basePhase inv ps) ps : ℂ) := by
  unfold fixPhase
  apply Complex.ext <;> simp

theorem basePhase_norm (inv : Bool) (ps : List PProc) : ‖basePhase inv ps‖ = 1 := by
  unfold basePhase
  split_ifs
  · simp
  · exact phase0_norm _

theorem mulField_eq (ph : ℂ) (f : List ℂ) : mulField ph f = f.map fun z => ph * z := by
  unfold mulField
  apply List.map_congr_left
  intro z _
  apply Complex.ext <;> simp <;> ring

/-! ## The phase -/

/-- **C43** (unit phase).  In every build and for any distribution over processes the field of every process is multiplied by
one and the same complex number of absolute value 1 (which is ±1 in the inversion-symmetric build). -/
theorem C43_unit (inv : Bool) (nxz : ℕ) (ps : List PProc) :
    ∃ u : ℂ, ‖u‖ = 1 ∧ (inv = true → u = 1 ∨ u = -1) ∧ u = fixPhase inv nxz ps ∧
      fix inv nxz ps = ps.map fun p => p.f.map fun z => u * z := by
  refine ⟨fixPhase inv nxz ps, ?_, ?_, rfl, ?_⟩
  · rw [fixPhase_eq, norm_mul, basePhase_norm, one_mul]
    rcases globalSign_pm inv nxz (basePhase inv ps) ps with h | h <;> rw [h] <;> simp
  · intro hi
    rw [fixPhase_eq]
    have : basePhase inv ps = 1 := by unfold basePhase; rw [if_pos hi]
    rcases globalSign_pm inv nxz (basePhase inv ps) ps with h | h <;> rw [h, this] <;> simp
  · unfold fix
    simp only [mulField_eq]

/-- **C43** (maximal real part).  In the complex build no unit phase gives a larger sum of squared real parts. -/
theorem C43_maximal (nxz : ℕ) (ps : List PProc) (u : ℂ) (hu : ‖u‖ = 1) :
    reSq u (comps ps) ≤ reSq 1 ((fix false nxz ps).flatten) := by
  have hfix : (fix false nxz ps).flatten = (comps ps).map fun z => fixPhase false nxz ps * z := by
    unfold fix comps
    simp only [mulField_eq]
    induction ps generalizing nxz with
    | nil => rfl
    | cons p ps ih =>
      generalize fixPhase false nxz (p :: ps) = v
      simp only [List.map_cons, List.flatten_cons, List.flatMap_cons, List.map_append]
      congr 1
      clear ih
      induction ps with
      | nil => rfl
      | cons p ps ih => simp only [List.map_cons, List.flatten_cons, List.flatMap_cons, List.map_append, ih]
  obtain ⟨w, hw, -, rfl, -⟩ := C43_unit false nxz ps
  have h1 : reSq 1 ((fix false nxz ps).flatten) = reSq (fixPhase false nxz ps) (comps ps) := by
    rw [hfix]
    unfold reSq
    rw [List.map_map]
    congr 1
    apply List.map_congr_left
    intro z _
    simp
  rw [h1, reSq_eq u hu, reSq_eq _ hw]
  have hs : fixPhase false nxz ps * fixPhase false nxz ps * sqSum (comps ps) = (‖sqSum (comps ps)‖ : ℂ) := by
    rw [fixPhase_eq]
    have hb : basePhase false ps = phase0 (sqSum (comps ps)) := by
      unfold basePhase
      rw [if_neg (by decide), total_sqSum]
    have h2 := phase0_sq (sqSum (comps ps))
    have hsq : ((globalSign false nxz (basePhase false ps) ps : ℂ)) * (globalSign false nxz (basePhase false ps) ps : ℂ) = 1 := by
      rcases globalSign_pm false nxz (basePhase false ps) ps with h | h <;> rw [h] <;> simp
    generalize (globalSign false nxz (basePhase false ps) ps : ℂ) = g at hsq ⊢
    rw [hb]
    generalize sqSum (comps ps) = s at *
    by_cases h0 : s = 0
    · subst h0; simp
    · have hn : (‖s‖ : ℂ) ≠ 0 := by simpa using h0
      have h3 := Complex.mul_conj s
      rw [Complex.normSq_eq_norm_sq] at h3
      push_cast at h3
      have : (phase0 s * g * (phase0 s * g) * s - ‖s‖) * ‖s‖ = 0 := by
        linear_combination (s * ‖s‖ * phase0 s * phase0 s) * hsq + s * h2 + h3
      rcases mul_eq_zero.1 this with h | h
      · linear_combination h
      · exact absurd h hn
  rw [hs, Complex.ofReal_re]
  have : (u * u * sqSum (comps ps)).re ≤ ‖sqSum (comps ps)‖ := by
    refine (Complex.re_le_norm _).trans ?_
    rw [norm_mul, norm_mul, hu]; simp
  linarith

/-! ## Canonical result -/

theorem maxAbs_neg (rs : List ℝ) : maxAbs (rs.map (-·)) = maxAbs rs := by
  unfold maxAbs
  rw [List.foldl_map]
  simp only [abs_neg]

theorem maxAbs_spec (rs : List ℝ) : 0 ≤ maxAbs rs ∧ (∀ r ∈ rs, |r| ≤ maxAbs rs) := by
  have : ∀ (l : List ℝ) (a : ℝ), a ≤ l.foldl (fun m r => if |r| > m then |r| else m) a ∧
      ∀ r ∈ l, |r| ≤ l.foldl (fun m r => if |r| > m then |r| else m) a := by
    intro l
    induction l with
    | nil => intro a; simp
    | cons x l ih =>
      intro a
      rw [List.foldl_cons]
      obtain ⟨h1, h2⟩ := ih (if |x| > a then |x| else a)
      have hx : |x| ≤ (if |x| > a then |x| else a) ∧ a ≤ (if |x| > a then |x| else a) := by
        split_ifs with h
        · exact ⟨le_rfl, h.le⟩
        · exact ⟨not_lt.1 h, le_rfl⟩
      refine ⟨hx.2.trans h1, fun r hr => ?_⟩
      rcases List.mem_cons.1 hr with rfl | hr
      · exact hx.1.trans h1
      · exact h2 r hr
  exact this rs 0

theorem lastBig_neg (m : ℝ) (rs : List ℝ) : lastBig m (rs.map (-·)) = (lastBig m rs).map fun t => (-t.1, t.2) := by
  unfold lastBig
  rw [List.zipIdx_map, ← List.map_reverse, List.find?_map]
  congr 1
  congr 1
  funext t
  simp only [Function.comp_apply, Prod.map_fst, abs_neg]

/-- Flipping all signs flips the sign found, as long as some value is not zero. -/
theorem localSign_neg (nxz y0 : ℕ) (rs : List ℝ) (h : ∃ r ∈ rs, r ≠ 0) :
    (localSign (maxAbs rs) nxz y0 (rs.map (-·))).2 = - (localSign (maxAbs rs) nxz y0 rs).2 := by
  obtain ⟨r, hr, hne⟩ := h
  have hpos : 0 < maxAbs rs := lt_of_lt_of_le (abs_pos.2 hne) ((maxAbs_spec rs).2 r hr)
  have hsome : (lastBig (maxAbs rs) rs).isSome := by
    -- some value attains the maximum
    have hatt : ∀ (l : List ℝ) (a : ℝ), l.foldl (fun m r => if |r| > m then |r| else m) a = a ∨
        ∃ x ∈ l, |x| = l.foldl (fun m r => if |r| > m then |r| else m) a := by
      intro l
      induction l with
      | nil => intro a; exact Or.inl rfl
      | cons x l ih =>
        intro a
        rw [List.foldl_cons]
        rcases ih (if |x| > a then |x| else a) with h | ⟨y, hy, he⟩
        · rw [h]
          split_ifs
          · exact Or.inr ⟨x, List.mem_cons_self, rfl⟩
          · exact Or.inl rfl
        · exact Or.inr ⟨y, List.mem_cons_of_mem _ hy, he⟩
    unfold lastBig
    rw [List.find?_isSome]
    rcases hatt rs 0 with h0 | ⟨x, hx, he⟩
    · have : maxAbs rs = 0 := h0
      linarith
    · obtain ⟨i, hi, rfl⟩ := List.getElem_of_mem hx
      refine ⟨(rs[i], i), ?_, ?_⟩
      · rw [List.mem_reverse]
        exact List.mk_mem_zipIdx_iff_getElem?.2 (List.getElem?_eq_getElem hi)
      · have : |rs[i]| = maxAbs rs := he
        simp only [decide_eq_true_eq, this]
        linarith
  obtain ⟨t, ht⟩ := Option.isSome_iff_exists.1 hsome
  have hbig : |t.1| ≥ 0.5 * maxAbs rs := by
    have := List.find?_some ht
    simpa using this
  have ht0 : t.1 ≠ 0 := by
    intro h
    rw [h, abs_zero] at hbig
    linarith
  unfold localSign
  rw [lastBig_neg, ht]
  simp only [Option.map_some]
  rcases lt_or_gt_of_ne ht0 with h | h
  · rw [if_neg (by linarith), if_pos h]; norm_num
  · rw [if_pos (by linarith), if_neg (by linarith)]

/-- The serial run. -/
def serial (f : List ℂ) : List PProc := [⟨0, f⟩]

theorem globalMax_serial (inv : Bool) (ph : ℂ) (f : List ℂ) : globalMax inv ph (serial f) = maxAbs (f.map (rval inv ph)) := by
  unfold globalMax serial
  simp only [List.map_cons, List.map_nil, List.foldl_cons, List.foldl_nil]
  exact max_eq_right (maxAbs_spec _).1

theorem globalSign_serial (inv : Bool) (nxz : ℕ) (ph : ℂ) (f : List ℂ) :
    globalSign inv nxz ph (serial f) = (localSign (maxAbs (f.map (rval inv ph))) nxz 0 (f.map (rval inv ph))).2 := by
  unfold globalSign
  rw [globalMax_serial]
  rfl

theorem fix_serial (inv : Bool) (nxz : ℕ) (f : List ℂ) :
    fix inv nxz (serial f) = [f.map fun z => fixPhase inv nxz (serial f) * z] := by
  unfold fix
  simp only [mulField_eq]
  rfl

/-- **C43** (canonical field; partial).  In the complex build, if the sum of the squares of the components does not vanish,
fields that differ by a phase are mapped to the same field. -/
theorem C43_canonical_partial (nxz : ℕ) (f : List ℂ) (u : ℂ) (hu : ‖u‖ = 1) (hS : (f.map fun z => z * z).sum ≠ 0) :
    fix false nxz (serial (f.map fun z => u * z)) = fix false nxz (serial f) := by
  rw [← sqSum_eq] at hS
  have hSu : sqSum (f.map fun z => u * z) = u * u * sqSum f := by
    rw [sqSum_eq, sqSum_eq, List.map_map]
    clear hS
    induction f with
    | nil => simp
    | cons z f ih =>
      simp only [List.map_cons, List.sum_cons, Function.comp_apply] at ih ⊢
      rw [ih]; ring
  have hb : ∀ g, basePhase false (serial g) = phase0 (sqSum g) := by
    intro g
    unfold basePhase serial
    rw [if_neg (by decide)]
    simp
  have hsq : (phase0 (u * u * sqSum f) * u) * (phase0 (u * u * sqSum f) * u) = phase0 (sqSum f) * phase0 (sqSum f) := by
    have h1 := phase0_sq (u * u * sqSum f)
    have h2 := phase0_sq (sqSum f)
    rw [norm_mul, norm_mul, hu, one_mul, one_mul, map_mul, map_mul] at h1
    have hn : (‖sqSum f‖ : ℂ) ≠ 0 := by simpa using hS
    have huc : u * starRingEnd ℂ u = 1 := by rw [Complex.mul_conj, Complex.normSq_eq_norm_sq, hu]; simp
    apply mul_right_cancel₀ hn
    linear_combination u * u * h1 - h2 + (starRingEnd ℂ (sqSum f)) * (u * starRingEnd ℂ u + 1) * huc
  -- the two base phases agree up to sign
  have hpm : phase0 (u * u * sqSum f) * u = phase0 (sqSum f) ∨ phase0 (u * u * sqSum f) * u = -phase0 (sqSum f) :=
    mul_self_eq_mul_self_iff.1 hsq
  -- some real part is nonzero
  have hne : ∃ r ∈ f.map (rval false (phase0 (sqSum f))), r ≠ 0 := by
    by_contra hc
    push Not at hc
    have h0 : reSq (phase0 (sqSum f)) f = 0 := by
      unfold reSq
      apply List.sum_eq_zero
      intro x hx
      obtain ⟨z, hz, rfl⟩ := List.mem_map.1 hx
      have := hc _ (List.mem_map_of_mem hz)
      unfold rval at this
      rw [if_neg (by decide)] at this
      rw [Complex.mul_re]
      have : (phase0 (sqSum f)).re * z.re - (phase0 (sqSum f)).im * z.im = 0 := by linarith
      rw [this]; norm_num
    rw [reSq_eq _ (phase0_norm _)] at h0
    have h2 := phase0_sq (sqSum f)
    have hnn : 0 ≤ (f.map Complex.normSq).sum := List.sum_nonneg (by
      intro x hx
      obtain ⟨z, -, rfl⟩ := List.mem_map.1 hx
      exact Complex.normSq_nonneg z)
    have hn : (0 : ℝ) < ‖sqSum f‖ := norm_pos_iff.2 hS
    have hval : phase0 (sqSum f) * phase0 (sqSum f) * sqSum f = (‖sqSum f‖ : ℂ) := by
      have h3 := Complex.mul_conj (sqSum f)
      rw [Complex.normSq_eq_norm_sq] at h3
      push_cast at h3
      have hn' : (‖sqSum f‖ : ℂ) ≠ 0 := by simpa using hS
      apply mul_right_cancel₀ hn'
      linear_combination sqSum f * h2 + h3
    rw [hval, Complex.ofReal_re] at h0
    linarith
  rw [fix_serial, fix_serial, fixPhase_eq, fixPhase_eq, hb, hb, hSu, globalSign_serial, globalSign_serial]
  congr 1
  rw [List.map_map]
  apply List.map_congr_left
  intro z _
  simp only [Function.comp_apply]
  rcases hpm with h | h
  · have hr : (f.map fun z => u * z).map (rval false (phase0 (u * u * sqSum f))) = f.map (rval false (phase0 (sqSum f))) := by
      rw [List.map_map]
      apply List.map_congr_left
      intro w _
      simp only [Function.comp_apply, rval, if_neg (by decide : ¬ (false = true))]
      rw [← h]
      simp only [Complex.mul_re, Complex.mul_im]
      ring
    rw [hr, ← h]
    ring
  · have hr : (f.map fun z => u * z).map (rval false (phase0 (u * u * sqSum f))) = (f.map (rval false (phase0 (sqSum f)))).map (-·) := by
      rw [List.map_map, List.map_map]
      apply List.map_congr_left
      intro w _
      simp only [Function.comp_apply, rval, if_neg (by decide : ¬ (false = true))]
      have h' : phase0 (sqSum f) = -(phase0 (u * u * sqSum f) * u) := by rw [h, neg_neg]
      rw [h']
      simp only [Complex.mul_re, Complex.mul_im, Complex.neg_re, Complex.neg_im]
      ring
    rw [hr, maxAbs_neg, localSign_neg _ _ _ hne]
    have h' : phase0 (sqSum f) = -(phase0 (u * u * sqSum f) * u) := by rw [h, neg_neg]
    rw [h']
    push_cast
    ring

/-- **C43** (canonical field, inversion-symmetric build; partial): the field and its negative are mapped to the same field if
the real and imaginary parts of some component differ. -/
theorem C43_canonical_inv_partial (nxz : ℕ) (f : List ℂ) (h : ∃ z ∈ f, z.re ≠ z.im) :
    fix true nxz (serial (f.map fun z => -z)) = fix true nxz (serial f) := by
  have hb : ∀ g, basePhase true (serial g) = 1 := fun g => by unfold basePhase; rw [if_pos rfl]
  have hr : (f.map fun z => -z).map (rval true 1) = (f.map (rval true 1)).map (-·) := by
    rw [List.map_map, List.map_map]
    apply List.map_congr_left
    intro w _
    simp only [Function.comp_apply, rval, if_true, Complex.neg_re, Complex.neg_im]
    ring
  have hne : ∃ r ∈ f.map (rval true 1), r ≠ 0 := by
    obtain ⟨z, hz, hzz⟩ := h
    refine ⟨_, List.mem_map_of_mem hz, ?_⟩
    simp only [rval, if_true]
    exact sub_ne_zero.2 hzz
  rw [fix_serial, fix_serial, fixPhase_eq, fixPhase_eq, hb, hb, globalSign_serial, globalSign_serial, hr, maxAbs_neg,
    localSign_neg _ _ _ hne]
  congr 1
  rw [List.map_map]
  apply List.map_congr_left
  intro z _
  simp only [Function.comp_apply]
  push_cast
  ring

/-! ## The eigenvector -/

/-- **C43** (eigenvector).  If the loaded field belongs to a band, the amplitudes of that band are multiplied by the phase and
those of all other bands are kept. -/
theorem C43_eigenvector (n p band : ℕ) (ph : ℂ) (H : ℕ → ℂ) (h1 : 1 ≤ band) (h2 : band ≤ p) :
    ∃ H', scaleBand n p band ph H = some H' ∧ ∀ i < n, ∀ b < p, H' (i * p + b) = if b = band - 1 then H (i * p + b) * ph else H (i * p + b) := by
  have key : ∀ n, ∃ H', scaleBand n p band ph H = some H' ∧
      ∀ i, ∀ b < p, H' (i * p + b) = if b = band - 1 ∧ i < n then H (i * p + b) * ph else H (i * p + b) := by
    intro n
    induction n with
    | zero => exact ⟨H, rfl, fun i b _ => by simp⟩
    | succ n ih =>
      obtain ⟨H', hH, hv⟩ := ih
      have hs : scaleBand (n + 1) p band ph H = scaleStep p band ph H' n := by
        unfold scaleBand at hH ⊢
        rw [List.range_succ, List.foldlM_append, hH]
        simp
      have ha : ((n : ℤ) * p + band - 1) = ((n * p + (band - 1) : ℕ) : ℤ) := by push_cast; omega
      refine ⟨Function.update H' (n * p + (band - 1)) (H' (n * p + (band - 1)) * ph), ?_, ?_⟩
      · rw [hs]
        unfold scaleStep
        simp only [ha, Int.toNat_natCast]
        rw [if_neg (by omega)]
      · intro i b hb
        by_cases he : i * p + b = n * p + (band - 1)
        · obtain ⟨e1, e2⟩ := rowMajor_inj hb (by omega : band - 1 < p) he
          subst e1 e2
          rw [Function.update_self, hv _ _ hb, if_neg (by omega), if_pos (by omega)]
        · rw [Function.update_of_ne he, hv i b hb]
          by_cases hc : b = band - 1 ∧ i < n
          · rw [if_pos hc, if_pos (by omega)]
          · rw [if_neg hc, if_neg]
            rintro ⟨e1, e2⟩
            have : i = n := by omega
            subst this e1
            exact he rfl
  obtain ⟨H', hH, hv⟩ := key n
  exact ⟨H', hH, fun i hi b hb => by rw [hv i b hb]; simp [hi]⟩

/-- **C43, refuted for fields that do not belong to a band**: after `get-epsilon` the band number is 0; a field loaded with
`field-load` keeps it, and then `fix-field-phase` writes before the start of the eigenvector array. -/
theorem C43_no_band_refuted (n p : ℕ) (ph : ℂ) (H : ℕ → ℂ) (hn : 0 < n) : scaleBand n p 0 ph H = none := by
  unfold scaleBand
  obtain ⟨m, rfl⟩ : ∃ m, n = m + 1 := ⟨n - 1, by omega⟩
  rw [List.range_succ_eq_map, List.foldlM_cons]
  have : scaleStep p 0 ph H 0 = none := by
    unfold scaleStep
    simp
  rw [this]; rfl

/-! ## Refutations and examples -/

theorem find_rev (l : List ℝ) (m : ℝ) (t : ℝ × ℕ) (pre post : List (ℝ × ℕ)) (h : l.zipIdx.reverse = pre ++ t :: post)
    (h1 : ∀ s ∈ pre, ¬ |s.1| ≥ 0.5 * m) (h2 : |t.1| ≥ 0.5 * m) : lastBig m l = some t := by
  unfold lastBig
  rw [h, List.find?_append, List.find?_eq_none.2 (by intro s hs; simpa using h1 s hs)]
  simp [List.find?_cons, h2]

/-- **C43, refuted** when the squares of the components sum to zero (a circularly polarised field): `(1, i, 0)` and its multiple
`i (1, i, 0)` are mapped to different fields. -/
theorem C43_canonical_refuted :
    fix false 1 (serial [1, Complex.I, 0]) = [[1, Complex.I, 0]] ∧
      fix false 1 (serial ([1, Complex.I, 0].map fun z => Complex.I * z)) = [[-Complex.I, 1, 0]] := by
  have hI := Complex.I_mul_I
  have hb : ∀ g, basePhase false (serial g) = phase0 (sqSum g) := by
    intro g
    unfold basePhase serial
    rw [if_neg (by decide)]
    simp
  have hp0 : phase0 0 = 1 := by
    rw [phase0_eq]; simp
  have s1 : sqSum [1, Complex.I, 0] = 0 := by
    rw [sqSum_eq]
    simp
  have s2 : sqSum ([1, Complex.I, 0].map fun z => Complex.I * z) = 0 := by
    rw [sqSum_eq]
    simp
  have r1 : [1, Complex.I, 0].map (rval false 1) = [1, 0, 0] := by simp [rval]
  have r2 : ([1, Complex.I, 0].map fun z => Complex.I * z).map (rval false 1) = [0, -1, 0] := by simp [rval]
  have m1 : maxAbs [1, 0, 0] = 1 := by norm_num [maxAbs]
  have m2 : maxAbs [0, -1, 0] = 1 := by norm_num [maxAbs]
  constructor
  · rw [fix_serial, fixPhase_eq, hb, s1, hp0, globalSign_serial, r1, m1]
    unfold localSign
    rw [find_rev [1, 0, 0] 1 (1, 0) [(0, 2), (0, 1)] [] (by simp [List.zipIdx]) (by norm_num) (by norm_num)]
    norm_num
  · rw [fix_serial, fixPhase_eq, hb, s2, hp0, globalSign_serial, r2, m2]
    unfold localSign
    rw [find_rev [0, -1, 0] 1 (-1, 1) [(0, 2)] [(0, 0)] (by simp [List.zipIdx]) (by norm_num) (by norm_num)]
    simp

/-- **C43, refuted with MPI**: the index of a component is offset by a number of *points*, so the points found by two
processes can get the same global index; with the field `(0,0,-1 | 0,1,0)` on two processes the field and its negative are
mapped to different fields. -/
theorem C43_mpi_refuted :
    fix false 1 [⟨0, [0, 0, -1]⟩, ⟨1, [0, 1, 0]⟩] = [[0, 0, 1], [0, -1, 0]] ∧
      fix false 1 [⟨0, [0, 0, 1]⟩, ⟨1, [0, -1, 0]⟩] = [[0, 0, -1], [0, 1, 0]] := by
  have hp2 : phase0 2 = 1 := by
    rw [phase0_eq, map_ofNat]
    have : Complex.arg 2 = 0 := Complex.arg_ofReal_of_nonneg (x := 2) (by norm_num)
    rw [this]; simp
  have hs : ∀ s : ℂ, s = 1 ∨ s = -1 → ∀ (a b : List ℂ), a = [0, 0, -s] → b = [0, s, 0] → basePhase false [⟨0, a⟩, ⟨1, b⟩] = 1 := by
    intro s h a b ha hb
    unfold basePhase
    rw [if_neg (by decide)]
    simp only [List.map_cons, List.map_nil, List.sum_cons, List.sum_nil, sqSum_eq, ha, hb]
    have : s * s = 1 := by rcases h with h | h <;> rw [h] <;> ring
    simp only [mul_zero, neg_mul_neg, this, zero_add, add_zero]
    norm_num
    exact hp2
  have b1 := hs 1 (Or.inl rfl) [0, 0, -1] [0, 1, 0] rfl rfl
  have b2 := hs (-1) (Or.inr rfl) [0, 0, 1] [0, -1, 0] (by simp) rfl
  have m1 : maxAbs [0, 0, -1] = 1 := by norm_num [maxAbs]
  have m2 : maxAbs [0, 1, 0] = 1 := by norm_num [maxAbs]
  have m3 : maxAbs [0, 0, 1] = 1 := by norm_num [maxAbs]
  have m4 : maxAbs [0, -1, 0] = 1 := by norm_num [maxAbs]
  have l1 := find_rev [0, 0, -1] 1 (-1, 2) [] [(0, 1), (0, 0)] (by simp [List.zipIdx]) (by norm_num) (by norm_num)
  have l2 := find_rev [0, 1, 0] 1 (1, 1) [(0, 2)] [(0, 0)] (by simp [List.zipIdx]) (by norm_num) (by norm_num)
  have l3 := find_rev [0, 0, 1] 1 (1, 2) [] [(0, 1), (0, 0)] (by simp [List.zipIdx]) (by norm_num) (by norm_num)
  have l4 := find_rev [0, -1, 0] 1 (-1, 1) [(0, 2)] [(0, 0)] (by simp [List.zipIdx]) (by norm_num) (by norm_num)
  have r0 : ∀ x y z : ℝ, ([(x : ℂ), y, z].map (rval false 1)) = [x, y, z] := by intro x y z; simp [rval]
  have e1 : ([0, 0, -1] : List ℂ).map (rval false 1) = [0, 0, -1] := by simp [rval]
  have e2 : ([0, 1, 0] : List ℂ).map (rval false 1) = [0, 1, 0] := by simp [rval]
  have e3 : ([0, 0, 1] : List ℂ).map (rval false 1) = [0, 0, 1] := by simp [rval]
  have e4 : ([0, -1, 0] : List ℂ).map (rval false 1) = [0, -1, 0] := by simp [rval]
  constructor
  · have g : globalSign false 1 1 [⟨0, [0, 0, -1]⟩, ⟨1, [0, 1, 0]⟩] = -1 := by
      unfold globalSign globalMax
      simp only [List.map_cons, List.map_nil, List.foldl_cons, List.foldl_nil, e1, e2, m1, m2, max_self,
        max_eq_right (zero_le_one (α := ℝ))]
      unfold localSign
      rw [l1, l2]
      norm_num [maxloc, maxlocOp]
    unfold fix
    rw [fixPhase_eq, b1, g]
    simp [mulField_eq]
  · have g : globalSign false 1 1 [⟨0, [0, 0, 1]⟩, ⟨1, [0, -1, 0]⟩] = -1 := by
      unfold globalSign globalMax
      simp only [List.map_cons, List.map_nil, List.foldl_cons, List.foldl_nil, e3, e4, m3, m4, max_self,
        max_eq_right (zero_le_one (α := ℝ))]
      unfold localSign
      rw [l3, l4]
      norm_num [maxloc, maxlocOp]
    unfold fix
    rw [fixPhase_eq, b2, g]
    simp [mulField_eq]

/-- Non-vacuity of `C43_canonical_partial`: `(2, i)` and `i·(2, i)`. -/
example : fix false 1 (serial ([2, Complex.I].map fun z => Complex.I * z)) = fix false 1 (serial [2, Complex.I]) :=
  C43_canonical_partial 1 _ Complex.I Complex.norm_I (by simp; norm_num)

/-- Non-vacuity of `C43_canonical_inv_partial`. -/
example : ∃ z ∈ [(1 : ℂ), Complex.I], z.re ≠ z.im := ⟨1, by simp, by simp⟩

end Mpb.Field.FixPhase

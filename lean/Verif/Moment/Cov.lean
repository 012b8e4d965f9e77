import Verif.Moment.Turn
import Verif.Moment.Table
import Verif.Parity.Lemmas

/-!
# Pixels related by a symmetry
-/

namespace Mpb.Moment
open Mpb.Tensor Mpb.Tensor.Spec Matrix

/-! ## Components -/

theorem v3_ext {F : Type*} {v w : V3 F} (h : ∀ i, comp v i = comp w i) : v = w :=
  V3.ext (h 0) (h 1) (h 2)

theorem comp_add (v w : V3 ℝ) (i : Fin 3) : comp (v + w) i = comp v i + comp w i := by fin_cases i <;> rfl

theorem comp_act {F : Type*} [Neg F] (S : Axes) (v : V3 F) (i : Fin 3) : comp (S.act v) i = if S.neg i then -comp v (S.σ i) else comp v (S.σ i) := by
  fin_cases i <;> rfl

theorem act_add (S : Axes) (v w : V3 ℝ) : S.act (v + w) = S.act v + S.act w := by
  refine v3_ext fun i => ?_
  rw [comp_add, comp_act, comp_act, comp_act, comp_add]
  split_ifs <;> ring

/-- The inverse signed permutation. -/
def Axes.inv (S : Axes) : Axes := ⟨S.σ.symm, fun i => S.neg (S.σ.symm i)⟩

theorem act_inv (S : Axes) (v : V3 ℝ) : S.act (S.inv.act v) = v := by
  refine v3_ext fun i => ?_
  rw [comp_act, comp_act]
  simp only [Axes.inv, Equiv.symm_apply_apply]
  split_ifs <;> simp

/-! ## Permutations of finite lists -/

theorem perm_of_inj {α : Type*} {l : List α} (hn : l.Nodup) (f : α → α) (hm : ∀ x ∈ l, f x ∈ l) (hi : ∀ x ∈ l, ∀ y ∈ l, f x = f y → x = y) :
    (l.map f).Perm l := by
  have h1 : (l.map f).Nodup := List.Nodup.map_on hi hn
  have h2 : l.map f ⊆ l := by
    intro y hy
    obtain ⟨x, hx, rfl⟩ := List.mem_map.mp hy
    exact hm x hx
  exact (List.subperm_of_subset h1 h2).perm_of_length_le (by rw [List.length_map])

/-! ## The averaging mesh -/

/-- Offset of mesh point `m` along an axis. -/
noncomputable def off (ms : ℤ) (s : ℝ) (m : ℕ) : ℝ := ((m : ℝ) - ((max ms 1 - 1 : ℤ) : ℝ) * (1 / 2)) * (s / ((max 1 ms : ℤ) : ℝ))

theorem off_reflect {ms : ℤ} (s : ℝ) {m : ℕ} (h : m < ms.toNat) : off ms s (ms.toNat - 1 - m) = -off ms s m := by
  have h1 : 1 ≤ ms := by omega
  unfold off
  rw [max_eq_left h1]
  have : ((ms.toNat - 1 - m : ℕ) : ℝ) = (ms : ℝ) - 1 - m := by
    have : ((ms.toNat - 1 - m : ℕ) : ℤ) = ms - 1 - m := by omega
    have := congrArg (fun z : ℤ => (z : ℝ)) this
    push_cast at this
    exact this
  rw [this]
  push_cast
  ring

/-- The offset vector. -/
noncomputable def offs (ms : V3 ℤ) (s : V3 ℝ) (t : ℕ × ℕ × ℕ) : V3 ℝ := ⟨off ms.x s.x t.1, off ms.y s.y t.2.1, off ms.z s.z t.2.2⟩

theorem meshPoints_eq (ms : V3 ℤ) (s r : V3 ℝ) : meshPoints ms s r = (loop3 ms.x.toNat ms.y.toNat ms.z.toNat).map fun t => r + offs ms s t := by
  unfold meshPoints
  exact List.map_congr_left fun t _ => rfl

/-- The action on mesh indices. -/
def actIdx (S : Axes) (N : V3 ℕ) (t : ℕ × ℕ × ℕ) : ℕ × ℕ × ℕ :=
  let g := fun i => if S.neg i then comp N i - 1 - comp (⟨t.1, t.2.1, t.2.2⟩ : V3 ℕ) (S.σ i) else comp (⟨t.1, t.2.1, t.2.2⟩ : V3 ℕ) (S.σ i)
  (g 0, g 1, g 2)

def tup (t : ℕ × ℕ × ℕ) : V3 ℕ := ⟨t.1, t.2.1, t.2.2⟩

theorem comp_actIdx (S : Axes) (N : V3 ℕ) (t : ℕ × ℕ × ℕ) (i : Fin 3) :
    comp (tup (actIdx S N t)) i = if S.neg i then comp N i - 1 - comp (tup t) (S.σ i) else comp (tup t) (S.σ i) := by
  fin_cases i <;> rfl

theorem mem_loop3' {N : V3 ℕ} {t : ℕ × ℕ × ℕ} : t ∈ loop3 N.x N.y N.z ↔ ∀ i, comp (tup t) i < comp N i := by
  rw [mem_loop3]
  constructor
  · rintro ⟨h0, h1, h2⟩ i
    fin_cases i
    exacts [h0, h1, h2]
  · intro h
    exact ⟨h 0, h 1, h 2⟩

theorem tup_inj {t t' : ℕ × ℕ × ℕ} (h : ∀ i, comp (tup t) i = comp (tup t') i) : t = t' :=
  Prod.ext (h 0) (Prod.ext (h 1) (h 2))

theorem actIdx_perm (S : Axes) (N : V3 ℕ) (hN : ∀ i, comp N (S.σ i) = comp N i) : ((loop3 N.x N.y N.z).map (actIdx S N)).Perm (loop3 N.x N.y N.z) := by
  refine perm_of_inj (Parity.nodup_loop3 _ _ _) _ (fun t ht => ?_) (fun t ht t' ht' h => ?_)
  · rw [mem_loop3'] at ht ⊢
    intro i
    have h1 := ht (S.σ i)
    rw [hN] at h1
    rw [comp_actIdx]
    split_ifs <;> omega
  · rw [mem_loop3'] at ht ht'
    refine tup_inj fun j => ?_
    obtain ⟨i, rfl⟩ := S.σ.surjective j
    have h1 := ht (S.σ i)
    have h2 := ht' (S.σ i)
    rw [hN] at h1 h2
    have h3 : comp (tup (actIdx S N t)) i = comp (tup (actIdx S N t')) i := by rw [h]
    rw [comp_actIdx, comp_actIdx] at h3
    split_ifs at h3 <;> omega

theorem comp_offs (ms : V3 ℤ) (s : V3 ℝ) (t : ℕ × ℕ × ℕ) (i : Fin 3) : comp (offs ms s t) i = off (comp ms i) (comp s i) (comp (tup t) i) := by
  fin_cases i <;> rfl

theorem comp_toNat (ms : V3 ℤ) (i : Fin 3) : comp (⟨ms.x.toNat, ms.y.toNat, ms.z.toNat⟩ : V3 ℕ) i = (comp ms i).toNat := by
  fin_cases i <;> rfl

theorem act_offs (S : Axes) (ms : V3 ℤ) (s : V3 ℝ) (hm : ∀ i, comp ms (S.σ i) = comp ms i) (hs : ∀ i, comp s (S.σ i) = comp s i)
    (t : ℕ × ℕ × ℕ) (ht : t ∈ loop3 ms.x.toNat ms.y.toNat ms.z.toNat) :
    S.act (offs ms s t) = offs ms s (actIdx S ⟨ms.x.toNat, ms.y.toNat, ms.z.toNat⟩ t) := by
  have ht' := mem_loop3' (N := ⟨ms.x.toNat, ms.y.toNat, ms.z.toNat⟩).mp ht
  refine v3_ext fun i => ?_
  have h1 := ht' (S.σ i)
  rw [comp_toNat, hm] at h1
  rw [comp_act, comp_offs, comp_offs, comp_actIdx, comp_toNat, hm, hs]
  split_ifs
  · rw [off_reflect _ h1]
  · rfl

/-- The mesh around the image of a point is the image of the mesh around the point. -/
theorem meshPoints_perm (S : Axes) (tt : V3 ℝ) (ms : V3 ℤ) (s r : V3 ℝ) (hm : ∀ i, comp ms (S.σ i) = comp ms i)
    (hs : ∀ i, comp s (S.σ i) = comp s i) :
    (meshPoints ms s (S.act r + tt)).Perm ((meshPoints ms s r).map fun q => S.act q + tt) := by
  rw [meshPoints_eq, meshPoints_eq, List.map_map]
  have e : (loop3 ms.x.toNat ms.y.toNat ms.z.toNat).map ((fun q => S.act q + tt) ∘ fun t => r + offs ms s t) =
      ((loop3 ms.x.toNat ms.y.toNat ms.z.toNat).map (actIdx S ⟨ms.x.toNat, ms.y.toNat, ms.z.toNat⟩)).map fun t => (S.act r + tt) + offs ms s t := by
    rw [List.map_map]
    refine List.map_congr_left fun t ht => ?_
    simp only [Function.comp_apply]
    rw [act_add, act_offs S ms s hm hs t ht]
    ext <;> simp <;> ring
  rw [e]
  exact (List.Perm.map _ (actIdx_perm S ⟨ms.x.toNat, ms.y.toNat, ms.z.toNat⟩ fun i => by rw [comp_toNat, comp_toNat, hm])).symm

end Mpb.Moment

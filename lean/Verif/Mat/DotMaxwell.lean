import Verif.Mat.DotProps
import Verif.Velocity.Lemmas
import Verif.Invariance.Monotone

/-!
# C114: the modelled `maxwell_compute_H_from_B` keeps the contract of `dot_eigenvectors`
-/

namespace Mpb.Mat
open Spec Mpb.Maxwell Mpb.Maxwell.Spec Mpb.Invariance Mpb.Velocity

open Classical in
/-- `maxwell_compute_H_from_B(mdata, H, W, mdata->fft_data, ib, 0, W.p)` (mpb/matrix-smob.c:314-316, maxwell_op.c:544-582) on the heap: `fft` are the transform
arrays, `buf` their contents before, `junk` after. -/
noncomputable def maxwellHfb (P : Problem) (H : EM) (fft : ℕ → Prop) (buf : ℕ → ℂ) (junk : Heap) (W : EM) (ib : ℤ) (h : Heap) : Heap := fun k a =>
  if k = W.data.arr then
    if W.data.off ≤ a then
      HFromB P.data false H.p W.p (fun a => h H.data.arr (H.data.off + a)) (fun a => h k (W.data.off + a)) buf ib.toNat 0 W.p (a - W.data.off)
    else h k a
  else if fft k then junk k a else h k a

/-- **C114**: the contract assumed by `C114_overlap` holds, with the matrix of the inverse permeability between planewaves. -/
theorem C114_field (P : Problem) (H : EM) (fft : ℕ → Prop) (buf : ℕ → ℂ) (junk : Heap) :
    FieldContract (P.data.N * 2) (muOp P).mat H fft (maxwellHfb P H fft buf junk) := by
  refine fun W ib h hle => ⟨?_, fun k a hk hf => by unfold maxwellHfb; rw [if_neg hk, if_neg hf]⟩
  set Bin : ℕ → ℂ := fun a => h H.data.arr (H.data.off + a) with hBin
  ext i j
  obtain ⟨G, c, hc, hG, e⟩ : ∃ G c, c < 2 ∧ G < P.data.N ∧ i.1 = G * 2 + c := ⟨i.1 / 2, i.1 % 2, by omega, by have := i.2; omega, by omega⟩
  have hb := HFromB_apply P.data false (pin := H.p) (pout := W.p) Bin (fun a => h W.data.arr (W.data.off + a)) buf (bstart := ib) (hstart := 0) (num := W.p)
    (by omega) (by simp) G hG j.1 j.2
  have hcol : (fun t => mat h (H.data.add ib) H.p (P.data.N * 2) W.p t j) = firstOf (P.data.N * 2) (pairs.symm (band H.p Bin (ib + j))) := by
    funext t
    show h H.data.arr (H.data.off + ib + (t * H.p + j)) = if t.1 % 2 = 0 then h H.data.arr (H.data.off + ((t.1 / 2 * 2 + 0) * H.p + (ib + j))) else
      h H.data.arr (H.data.off + ((t.1 / 2 * 2 + 1) * H.p + (ib + j)))
    split
    · rw [show t.1 / 2 * 2 + 0 = t.1 by omega]; congr 1; omega
    · rw [show t.1 / 2 * 2 + 1 = t.1 by omega]; congr 1; omega
  have hR : ((muOp P).mat * mat h (H.data.add ib) H.p (P.data.N * 2) W.p) i j = pairs.symm (bandMuinv P.data (band H.p Bin (ib + j))) i := by
    have := congrFun ((muOp P).mulVec (pairs.symm (band H.p Bin (ib + j)))) i
    rw [← hcol, LinearEquiv.apply_symm_apply] at this
    exact this
  rw [hR]
  show maxwellHfb P H fft buf junk W ib h W.data.arr (W.data.off + (i * W.p + j)) = _
  unfold maxwellHfb
  rw [if_pos rfl, if_pos (by omega), Nat.add_sub_cancel_left, Int.toNat_natCast]
  rw [Nat.zero_add] at hb
  show _ = if i.1 % 2 = 0 then (bandMuinv P.data (band H.p Bin (ib + j)) (i.1 / 2)).1 else (bandMuinv P.data (band H.p Bin (ib + j)) (i.1 / 2)).2
  rw [show i.1 / 2 = G by omega, ← hb]
  split
  · rw [show i.1 = G * 2 + 0 by omega]; rfl
  · rw [show i.1 = G * 2 + 1 by omega]; rfl

end Mpb.Mat

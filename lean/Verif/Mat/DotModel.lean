import Verif.Mat.Model

/-!
# Model: overlap matrices of stored eigenvectors, products and eigenvalues of matrices at the Scheme level

Newly allocated arrays are given as pointers; the `free` at the end of the functions is not modelled.
-/

namespace Mpb.Mat

/-- `sqmatrix2scm`, mpb/matrix-smob.c:148-157: a copy in the new array `res`. -/
def sq2scm (m : SQ) (res : Ptr) (h : Heap) : Option (SQ × Heap) := (sqCopy ⟨m.p, m.p, res⟩ m h).map fun h => (⟨m.p, m.p, res⟩, h)

/-- `sqmatrix_mult`, mpb/matrix-smob.c:227-240; `tmp` is the array of `C`. -/
noncomputable def sqMult (A B : SQ) (tmp res : Ptr) (h : Heap) : Option (SQ × Heap) :=
  if A.p = B.p then
    match sqAeBC ⟨A.p, A.p, tmp⟩ A false B false h with
    | none => none
    | some h => sq2scm ⟨A.p, A.p, tmp⟩ res h
  else none

/-- `sqmatrix_eigenvalues`, src/matrices/sqmatrix.c:295-313, called by `sqmatrix_eigvals`, mpb/matrix-smob.c:256-265.  `geev` is LAPACK's routine on
the column-major array (eigenvalues only, complex build): the new heap and the eigenvalues, or `none` if it does not converge (blasglue.c:346-347).  The
call with `lwork = -1` only asks for the size of the work array. -/
def sqEigvals (geev : Ptr → ℕ → Heap → Option (Heap × List ℂ)) (A : SQ) (tmp : Ptr) (h : Heap) : Option (Heap × List ℂ) :=
  match sqCopy ⟨A.p, A.p, tmp⟩ A h with
  | none => none
  | some h => geev tmp A.p h

/-- The loop of `dot_eigenvectors` with a permeability, mpb/matrix-smob.c:309-320: `hfb W ib` is `maxwell_compute_H_from_B` of the bands from `ib` on
(counted from 0) into all the columns of `W`.  With `alloc_p = 0` the loop would not end. -/
noncomputable def dotLoop (hfb : EM → ℤ → Heap → Heap) (U : SQ) (m : EM) (start final : ℤ) (S1 S2 : SQ) (W : EM) (ib : ℤ) (h : Heap) : Option Heap :=
  if _hi : ib < final then
    if _ha : W.allocP = 0 then none
    else
      match (if ib + W.allocP > final then emResize W (final - ib).toNat false h else some (W, h)) with
      | none => none
      | some (W', h) =>
        match emXtYslice2 U m W' 0 0 m.p W'.p (ib - start).toNat S1 S2 (hfb W' ib h) with
        | none => none
        | some h => dotLoop hfb U m start final S1 S2 W' (ib + W.allocP) h
  else some h
termination_by (final - ib).toNat
decreasing_by omega

/-- The two branches of `dot_eigenvectors`, mpb/matrix-smob.c:298-327; `hfb = none` without a permeability.  The check `iy >= 0` is that of
evectmatrix.c:186. -/
noncomputable def dotCore (hfb : Option (EM → ℤ → Heap → Heap)) (U : SQ) (H m W : EM) (start : ℤ) (S1 S2 : SQ) (h : Heap) : Option Heap :=
  match hfb with
  | none => if start ≥ 0 then emXtYslice U m H 0 start.toNat m.p S1 h else none
  | some f => dotLoop f U m start (start + m.p) S1 S2 W start h

/-- `dot_eigenvectors`, mpb/matrix-smob.c:287-333, after init-params: `H` the current eigenvectors, `m` the stored ones, `W` the first work array,
`numBands` the variable num-bands.  `u`, `s1`, `s2`, `res` are new arrays. -/
noncomputable def dotEigenvectors (hfb : Option (EM → ℤ → Heap → Heap)) (H m W : EM) (numBands bStart : ℤ) (u s1 s2 res : Ptr) (h : Heap) :
    Option (SQ × Heap) :=
  if bStart - 1 + m.p ≤ numBands then
    match dotCore hfb ⟨m.p, m.p, u⟩ H m W (bStart - 1) ⟨m.p, m.p, s1⟩ ⟨m.p, m.p, s2⟩ h with
    | none => none
    | some h => sq2scm ⟨m.p, m.p, u⟩ res h
  else none

end Mpb.Mat

import Verif.Field.PointModel
import Verif.Tensor.Spec

/-!
# Model of the dielectric function as the user sees it

`get-epsilon` (mpb/epsilon.c:413-497), `get-epsilon-point`, `get-epsilon-inverse-tensor-point` (mpb/fields.c:657-700), the tensor
components written by `output-epsilon` (mpb/epsilon.c:499-562, mpb/fields.c:1205-1275).  Build with `WITH_HERMITIAN_EPSILON`, complex fields,
no MPI (the point functions also for the inversion-symmetric build).  Numbers are exact reals.  LAPACK's `heev` is a parameter.
-/

namespace Mpb.Epsilon
open Tensor Field

/-- LAPACK's eigenvalue routine for 3x3 Hermitian matrices, as called from C: the argument is the matrix Fortran sees. -/
abbrev Heev := Matrix (Fin 3) (Fin 3) ℂ → Fin 3 → ℝ

/-- The array `Vm` of `maxwell_sym_matrix_eigs`, maxwell_eps.c:50-58. -/
noncomputable def vm (V : HMat) : Fin 3 → Fin 3 → ℂ :=
  ![![⟨V.m00, 0⟩, V.m01, V.m02], ![star V.m01, ⟨V.m11, 0⟩, V.m12], ![star V.m02, star V.m12, ⟨V.m22, 0⟩]]

/-- `maxwell_sym_matrix_eigs`, maxwell_eps.c:47-72: Fortran reads the row-major array by columns. -/
noncomputable def symMatrixEigs (heev : Heev) (V : HMat) : Fin 3 → ℝ := heev fun i j => vm V j i

/-- `mean_medium_from_matrix`, mpb/fields.c:215-222; `none` is a division by zero (an infinite value in C). -/
noncomputable def meanMedium (heev : Heev) (epsInv : HMat) : Option ℝ :=
  open Classical in
  let e := symMatrixEigs heev epsInv
  if e 0 + e 1 = 0 then none else some (2 / (e 0 + e 1))

/-- The nine reals of a `symmetric_matrix`, in the order of the structure (maxwell.h:45-47). -/
noncomputable def reals (m : HMat) : List ℝ := [m.m00, m.m11, m.m22, m.m01.re, m.m01.im, m.m02.re, m.m02.im, m.m12.re, m.m12.im]

/-- `interp_eps_inv`, mpb/fields.c:657-675: `data` is the array `mdata->eps_inv` seen as an array of reals, nine for each point. -/
noncomputable def interpEpsInv (S : Shape) (size p : V3 ℝ) (data : List ℝ) : Option HMat := do
  let m00 ← interpVal S size p data 0 9 false
  let m11 ← interpVal S size p data 1 9 false
  let m22 ← interpVal S size p data 2 9 false
  let m01 ← interpCval S size p data 3 9
  let m02 ← interpCval S size p data 5 9
  let m12 ← interpCval S size p data 7 9
  pure ⟨m00, m11, m22, m01, m02, m12⟩

/-- `get_epsilon_point`, mpb/fields.c:677-682. -/
noncomputable def epsilonPoint (heev : Heev) (S : Shape) (size p : V3 ℝ) (data : List ℝ) : Option ℝ := do
  let m ← interpEpsInv S size p data
  meanMedium heev m

/-- `get_epsilon_inverse_tensor_point`, mpb/fields.c:684-700.  `make_hermitian_cmatrix3x3` of libctl puts the six entries and the
conjugates of the last three in a matrix. -/
noncomputable def epsilonInverseTensorPoint (S : Shape) (size p : V3 ℝ) (data : List ℝ) : Option (Matrix (Fin 3) (Fin 3) ℂ) :=
  (interpEpsInv S size p data).map Spec.toMatrix

/-- The running statistics of `get_epsilon`, mpb/epsilon.c:417-418. -/
structure Stats where
  mean : ℝ
  invMean : ℝ
  high : ℝ
  low : ℝ
  fill : ℕ

/-- One iteration of the loop of mpb/epsilon.c:446-458. -/
noncomputable def Stats.add (s : Stats) (v : ℝ) : Stats :=
  open Classical in
  { low := if v < s.low then v else s.low
    high := if v > s.high then v else s.high
    mean := s.mean + v
    invMean := s.invMean + 1 / v
    fill := if v > 1.0001 then s.fill + 1 else s.fill }

/-- What `get_epsilon` prints. -/
structure Report where
  low : ℝ
  high : ℝ
  mean : ℝ
  harm : ℝ
  over : ℝ
  fill : ℝ

/-- The numbers printed, mpb/epsilon.c:486-496, from the totals over `n` points. -/
noncomputable def report (s : Stats) (n : ℕ) : Report :=
  open Classical in
  { low := s.low
    high := s.high
    mean := s.mean / n
    harm := n / s.invMean
    over := 100 * s.fill / n
    fill := if s.high = s.low then 100 else 100 * (s.mean / n - s.low) / (s.high - s.low) }

/-- `get_epsilon`, mpb/epsilon.c:413-497: the field and the printed line.  `tensors` is `eps_inv` (not NULL). -/
noncomputable def getEpsilon (heev : Heev) (tensors : List HMat) : Option (List ℝ × Report) := do
  let vals ← tensors.mapM (meanMedium heev)
  pure (vals, report (vals.foldl Stats.add ⟨0, 0, -1e20, 1e20, 0⟩) tensors.length)

/-- The real number at byte offset `o` of a tensor, in units of reals (mpb/epsilon.c:550, 555). -/
noncomputable def realAt (m : HMat) (o : ℕ) : ℝ := (reals m).getD o 0

/-- The `switch` of mpb/epsilon.c:513-543 with the correction of 545-548: the offset in reals, and the value of `conj`. -/
def offsetOf (c1 c2 : ℕ) (imag : Bool) : ℕ × Bool :=
  let r : ℕ × Bool := match c1 * 3 + c2 with
    | 0 => (0, false)
    | 1 => (3, false)
    | 2 => (5, false)
    | 3 => (3, imag)
    | 4 => (1, false)
    | 5 => (7, false)
    | 6 => (5, imag)
    | 7 => (7, imag)
    | 8 => (2, false)
    | _ => (0, false)
  (if c1 ≠ c2 ∧ imag = true then r.1 + 1 else r.1, r.2)

/-- One iteration of the loop of `get_epsilon_tensor`, mpb/epsilon.c:550-561. -/
noncomputable def tensorEntry (c1 c2 : ℕ) (imag inv : Bool) (epsInv : HMat) : Res ℝ :=
  let o := offsetOf c1 c2 imag
  let sgn := fun v : ℝ => if o.2 then -v else v
  if inv then .ok (sgn (realAt epsInv o.1))
  else match hInvert epsInv with
    | .ok eps => .ok (sgn (realAt eps o.1))
    | .checkFailed => .checkFailed
    | .nonFinite => .nonFinite

/-- `get_epsilon_tensor`, mpb/epsilon.c:499-562: the array left in `fft_data`. -/
noncomputable def getEpsilonTensor (c1 c2 : ℕ) (imag inv : Bool) : List HMat → Res (List ℝ)
  | [] => .ok []
  | t :: l => match tensorEntry c1 c2 imag inv t with
    | .ok v => match getEpsilonTensor c1 c2 imag inv l with
      | .ok r => .ok (v :: r)
      | .checkFailed => .checkFailed
      | .nonFinite => .nonFinite
    | .checkFailed => .checkFailed
    | .nonFinite => .nonFinite

/-- The letter `c + 'x'`. -/
def letter (c : ℕ) : Char := Char.ofNat ('x'.toNat + c)

/-- The calls of `get_epsilon_tensor` made by `output-epsilon`, in order, with the names of the datasets (mpb/fields.c:1236-1275). -/
def datasets : List (List Char × ℕ × ℕ × Bool × Bool) :=
  [false, true].flatMap fun inv => (List.range 3).flatMap fun c1 => (List.range' c1 (3 - c1)).flatMap fun c2 =>
    let name := (if inv then "epsilon_inverse".toList else "epsilon".toList) ++ '.' :: letter c1 :: letter c2 :: []
    (name, c1, c2, false, inv) :: if c1 ≠ c2 then [(name ++ ['.', 'i'], c1, c2, true, inv)] else []

/-- The tensor datasets of the file written by `output-epsilon` (those after `data`). -/
noncomputable def epsilonFile (tensors : List HMat) : List (List Char × Res (List ℝ)) :=
  datasets.map fun d => (d.1, getEpsilonTensor d.2.1 d.2.2.1 d.2.2.2.1 d.2.2.2.2 tensors)

end Mpb.Epsilon

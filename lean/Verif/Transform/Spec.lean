import Verif.Transform.Model
import Verif.Field.PointProps
import Verif.Maxwell.Spec
import Mathlib.Algebra.BigOperators.Group.Finset.Basic

/-!
# Specification of `transformed-overlap`
-/

namespace Mpb.Transform
open Mpb.Field Mpb.Maxwell Mpb.Maxwell.Spec

/-- The periodic part of the field on the grid (`F i j k` at grid point `i j k`, all cells). -/
abbrev GridField := ℤ → ℤ → ℤ → V3 ℂ

/-- The stored array holds the field. -/
def Stores (S : Shape) (data : List ℝ) (F : GridField) : Prop :=
  ∀ i j k : ℕ, i < S.nx → j < S.ny → k < S.nz → vecAt data ((i * S.ny + j) * S.nz + k) = some (F i j k)

/-- A grid, stored completely, and a lattice. -/
structure Ctx.Ok (C : Ctx) : Prop where
  nx : 0 < C.S.nx
  ny : 0 < C.S.ny
  nz : 0 < C.S.nz
  inv : C.S.inv = false
  sx : C.size.x ≠ 0
  sy : C.size.y ≠ 0
  sz : C.size.z ≠ 0
  basis : C.basis.det ≠ 0

/-- The physical field at position `p` (lattice coordinates): the interpolated periodic part times `exp(2πi k·p)`. -/
noncomputable def blochField (C : Ctx) (F : GridField) (p : V3 ℝ) : V3 ℂ :=
  V3.map (· * blochPhase C.size C.k p)
    ⟨at_ C.S C.size p fun i j k => (F i j k).x, at_ C.S C.size p fun i j k => (F i j k).y, at_ C.S C.size p fun i j k => (F i j k).z⟩

/-- A real matrix applied to a complex vector. -/
noncomputable def applyC (m : M3 ℝ) (v : V3 ℂ) : V3 ℂ :=
  ⟨m.c0.x * v.x + m.c1.x * v.y + m.c2.x * v.z, m.c0.y * v.x + m.c1.y * v.y + m.c2.y * v.z, m.c0.z * v.x + m.c1.z * v.y + m.c2.z * v.z⟩

/-- A symmetry operation: the position is transformed by `W`, in lattice coordinates, and then moved by `w`; `Winv` is the inverse of `W` and
`Wc` the same map in cartesian coordinates. -/
structure IsOp (C : Ctx) (W Winv Wc : M3 ℝ) : Prop where
  inv : Winv.mul W = M3.one
  cart : Wc.mul C.basis = C.basis.mul W

/-- The vector field `A` transformed by the operation: `({W|w}A)(p) = W A(W⁻¹(p - w))`. -/
noncomputable def opField (Winv Wc : M3 ℝ) (w : V3 ℝ) (A : V3 ℝ → V3 ℂ) (p : V3 ℝ) : V3 ℂ := applyC Wc (A (Winv.mulVec (p - w)))

/-- The position of a grid point: the cell is centred at the origin. -/
noncomputable def gridPoint (C : Ctx) (i j k : ℤ) : V3 ℝ :=
  ⟨if C.S.nx = 1 then 0 else ((i : ℝ) / C.S.nx - 1 / 2) * C.size.x, if C.S.ny = 1 then 0 else ((j : ℝ) / C.S.ny - 1 / 2) * C.size.y,
   if C.S.nz = 1 then 0 else ((k : ℝ) / C.S.nz - 1 / 2) * C.size.z⟩

/-- The sum over the grid points of the cell. -/
noncomputable def gridSum (C : Ctx) (f : ℕ → ℕ → ℕ → ℂ) : ℂ :=
  ∑ i ∈ Finset.range C.S.nx, ∑ j ∈ Finset.range C.S.ny, ∑ k ∈ Finset.range C.S.nz, f i j k

/-- The number of a grid point. -/
def index (C : Ctx) (i j k : ℕ) : ℕ := (i * C.S.ny + j) * C.S.nz + k

/-- The conjugate field: `E = ε⁻¹ D` of a D field, `H = μ⁻¹ B` of a B field. -/
noncomputable def conjugate (C : Ctx) (ty : Char) (idx : ℕ) (v : V3 ℂ) : V3 ℂ :=
  if ty = 'd' then (C.epsInv idx).mulVec v else match C.muInv with
    | some mu => (mu idx).mulVec v
    | none => v

/-- `∫ E†·A` over the cell, where `E` is conjugate to the field `F`. -/
noncomputable def overlap (C : Ctx) (ty : Char) (F : GridField) (A : V3 ℝ → V3 ℂ) : ℂ :=
  (C.vol / (C.S.nx * C.S.ny * C.S.nz : ℕ) : ℝ) * gridSum C fun i j k =>
    herm (conjugate C ty (index C i j k) (blochField C F (gridPoint C i j k))) (A (gridPoint C i j k))

/-- D is a vector; B is a pseudovector. -/
noncomputable def sign (ty : Char) (W : M3 ℝ) : ℂ := if ty = 'b' then (W.det : ℝ) else 1

end Mpb.Transform

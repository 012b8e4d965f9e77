import Verif.Moment.Model
import Verif.Tensor.Spec
import Mathlib.Data.Fintype.Perm
import Mathlib.Data.Fintype.Pi

/-!
# Symmetries of a structure: specification
-/

namespace Mpb.Moment
open Mpb.Tensor Matrix

/-- The components of a vector. -/
def comp {F : Type*} (v : V3 F) : Fin 3 → F := ![v.x, v.y, v.z]

/-- A signed permutation of the three coordinate axes. -/
structure Axes where
  σ : Equiv.Perm (Fin 3)
  neg : Fin 3 → Bool

/-- Component `i` of the image of `v`: component `σ i` of `v`, negated if `neg i`. -/
def Axes.get {F : Type*} [Neg F] (S : Axes) (v : V3 F) (i : Fin 3) : F := if S.neg i then -comp v (S.σ i) else comp v (S.σ i)

/-- The image of a vector. -/
def Axes.act {F : Type*} [Neg F] (S : Axes) (v : V3 F) : V3 F := ⟨S.get v 0, S.get v 1, S.get v 2⟩

/-- The mesh is carried to itself, with its weights, by a map of space. -/
def Invariant (f : V3 ℝ → V3 ℝ) (l : List Entry) : Prop := (l.map fun e => (f e.1, e.2)).Perm l

/-- A rotation about the `z` axis by `m` twelfths of a turn, preceded by the reflection `y → -y` if `refl`, with or without the
reflection `z → -z`. -/
noncomputable def dihedral (m : ℕ) (refl flip : Bool) (v : V3 ℝ) : V3 ℝ :=
  let y := if refl then -v.y else v.y
  ⟨Real.cos (2 * m * Real.pi / 12) * v.x - Real.sin (2 * m * Real.pi / 12) * y,
   Real.sin (2 * m * Real.pi / 12) * v.x + Real.cos (2 * m * Real.pi / 12) * y, if flip then -v.z else v.z⟩

/-- The point symmetries (in Cartesian coordinates) that the mesh for a computation in `rank` dimensions can have: in three dimensions
the 48 symmetries of the cube, in two dimensions those of the regular dodecagon in the plane `z = 0`, with or without `z → -z`, in one
dimension the maps with `x → ±x`. -/
def MeshSym (rank : ℕ) (Q : V3 ℝ → V3 ℝ) : Prop :=
  match rank with
  | 1 => (Q ⟨1, 0, 0⟩ = ⟨1, 0, 0⟩ ∧ Q ⟨-1, 0, 0⟩ = ⟨-1, 0, 0⟩) ∨ (Q ⟨1, 0, 0⟩ = ⟨-1, 0, 0⟩ ∧ Q ⟨-1, 0, 0⟩ = ⟨1, 0, 0⟩)
  | 2 => ∃ m refl flip, Q = dihedral m refl flip
  | _ => ∃ S : Axes, Q = S.act

/-- `G` holds the reciprocal vectors of `R` (both as columns): the vector with lattice coordinates `G_i · v` is `v`. -/
def Dual (R G : M3 ℝ) : Prop := ∀ v, R.mulVec ⟨G.c0.dot v, G.c1.dot v, G.c2.dot v⟩ = v

/-- The square of the length. -/
def len2 (v : V3 ℝ) : ℝ := v.dot v

/-- The distance between neighbouring grid points along lattice direction `i`; `R` has the lattice vectors as columns. -/
noncomputable def spacing (n : V3 ℕ) (R : M3 ℝ) (i : Fin 3) : ℝ :=
  Real.sqrt (len2 (![R.c0, R.c1, R.c2] i)) / ((![n.x, n.y, n.z] i : ℕ) : ℝ)

/-- The number of dimensions of the grid. -/
def dimension (n : V3 ℕ) : ℕ := if 1 < n.z then 3 else if 1 < n.y then 2 else 1

/-- The tensor `e'` is the tensor `e` turned by the orthogonal matrix `Q`: `e' = Q e Qᵀ`. -/
def Turned (Q : Matrix (Fin 3) (Fin 3) ℝ) (e e' : HMat) : Prop :=
  Spec.toMatrix e' = Q.map (fun x : ℝ => (x : ℂ)) * Spec.toMatrix e * (Q.map (fun x : ℝ => (x : ℂ)))ᵀ

/-- A matrix applied to a vector. -/
def app (Q : Matrix (Fin 3) (Fin 3) ℝ) (v : V3 ℝ) : V3 ℝ :=
  ⟨Q 0 0 * v.x + Q 0 1 * v.y + Q 0 2 * v.z, Q 1 0 * v.x + Q 1 1 * v.y + Q 1 2 * v.z, Q 2 0 * v.x + Q 2 1 * v.y + Q 2 2 * v.z⟩

/-- An operation of a space group that maps the grid to itself: a signed permutation of the lattice directions followed by a translation by `t`
grid steps.  In Cartesian coordinates its linear part is the matrix `Q`. -/
structure Op where
  S : Axes
  t : V3 ℤ
  Q : Matrix (Fin 3) (Fin 3) ℝ

/-- The grid. -/
def sizes (md : MData) : V3 ℕ := ⟨md.nx, md.ny, md.nz⟩

/-- The dimension of a grid. -/
def dim (md : MData) : ℕ := if md.nz > 1 then 3 else if md.ny > 1 then 2 else 1

/-- The image of a point (lattice coordinates). -/
noncomputable def Op.map (o : Op) (n : V3 ℕ) (r : V3 ℝ) : V3 ℝ := o.S.act r + ⟨o.t.x / n.x, o.t.y / n.y, o.t.z / n.z⟩

/-- The grid point `g'` is the image of the grid point `g`, up to lattice vectors. -/
def Op.Image (o : Op) (n g g' : V3 ℕ) : Prop :=
  ∃ z : V3 ℤ, ∀ i, ((comp g' i : ℕ) : ℤ) = o.S.get (⟨g.x, g.y, g.z⟩ : V3 ℤ) i + comp o.t i + comp z i * ((comp n i : ℕ) : ℤ)

/-- The integers as a lattice vector. -/
def latticeVec (z : V3 ℤ) : V3 ℝ := ⟨z.x, z.y, z.z⟩

/-- The structure described by the arguments `a`, with the analytic averages if there are any, is periodic and has the symmetry `o`; the grid,
the mesh and the moment mesh allow it. -/
structure Symmetric (md : MData) (a : DielArgs) (o : Op) : Prop where
  /-- `Q` is orthogonal and is the operation in Cartesian coordinates. -/
  orth : o.Qᵀ * o.Q = 1
  lattice : ∀ v, a.Rl.mulVec (o.S.act v) = app o.Q (a.Rl.mulVec v)
  /-- Directions that are exchanged have the same number of grid points and of mesh points. -/
  grid : ∀ i, comp (sizes md) (o.S.σ i) = comp (sizes md) i
  mesh : ∀ i, comp a.ms (o.S.σ i) = comp a.ms i
  /-- Directions without a grid are not exchanged with those with one. -/
  flat : (dim md = 1 → o.S.σ 0 = 0) ∧ (dim md = 2 → o.S.σ 2 = 2)
  /-- The directions of the moment mesh are mapped to each other. -/
  moment : MeshSym (dim md) (app o.Q)
  /-- Either the Cartesian axes are mapped to each other, or the media are isotropic. -/
  axes : (∃ T : Axes, ∀ v, app o.Q v = T.act v) ∨ ∀ r, ∃ e, (a.epsilon r).1 = Spec.iso e
  /-- The structure. -/
  periodic : ∀ r z, a.epsilon (r + latticeVec z) = a.epsilon r
  eps : ∀ r, Turned o.Q (a.epsilon r).1 (a.epsilon (o.map (sizes md) r)).1
  epsInv : ∀ r, Turned o.Q (a.epsilon r).2 (a.epsilon (o.map (sizes md) r)).2
  /-- The analytic averages. -/
  mperiodic : ∀ f, a.mepsilon = some f → ∀ r z, f (r + latticeVec z) = f r
  meps : ∀ f, a.mepsilon = some f → ∀ r, Option.Rel (Turned o.Q) (f r) (f (o.map (sizes md) r))

end Mpb.Moment

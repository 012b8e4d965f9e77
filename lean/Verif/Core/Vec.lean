import Mathlib.Algebra.Ring.Defs
import Mathlib.Algebra.Field.Defs

/-!
# Three-dimensional vectors and matrices

`V3 F` models libctl's `vector3` (and, over `ℂ`, `cvector3`) and the `real x[3]` arrays of the C code; `M3 F` models
libctl's `matrix3x3`, a record of three **columns** `c0 c1 c2`, and `real R[3][3]`.
-/

namespace Mpb

/-- `vector3` (libctl): three components. -/
@[ext] structure V3 (F : Type*) where
  x : F
  y : F
  z : F
deriving DecidableEq, Repr

namespace V3
variable {F : Type*}

instance [Add F] : Add (V3 F) := ⟨fun a b => ⟨a.x + b.x, a.y + b.y, a.z + b.z⟩⟩
instance [Sub F] : Sub (V3 F) := ⟨fun a b => ⟨a.x - b.x, a.y - b.y, a.z - b.z⟩⟩
instance [Neg F] : Neg (V3 F) := ⟨fun a => ⟨-a.x, -a.y, -a.z⟩⟩
instance [Zero F] : Zero (V3 F) := ⟨⟨0, 0, 0⟩⟩

/-- `vector3_scale`. -/
def smul [Mul F] (s : F) (a : V3 F) : V3 F := ⟨s * a.x, s * a.y, s * a.z⟩
/-- `vector3_dot`. -/
def dot [Add F] [Mul F] (a b : V3 F) : F := a.x * b.x + a.y * b.y + a.z * b.z
/-- The right-handed cross product. -/
def cross [Sub F] [Mul F] (a b : V3 F) : V3 F :=
  ⟨a.y * b.z - a.z * b.y, a.z * b.x - a.x * b.z, a.x * b.y - a.y * b.x⟩
/-- Apply a function to every component. -/
def map {E : Type*} (f : F → E) (a : V3 F) : V3 E := ⟨f a.x, f a.y, f a.z⟩

@[simp] theorem add_x [Add F] (a b : V3 F) : (a + b).x = a.x + b.x := rfl
@[simp] theorem add_y [Add F] (a b : V3 F) : (a + b).y = a.y + b.y := rfl
@[simp] theorem add_z [Add F] (a b : V3 F) : (a + b).z = a.z + b.z := rfl
@[simp] theorem sub_x [Sub F] (a b : V3 F) : (a - b).x = a.x - b.x := rfl
@[simp] theorem sub_y [Sub F] (a b : V3 F) : (a - b).y = a.y - b.y := rfl
@[simp] theorem sub_z [Sub F] (a b : V3 F) : (a - b).z = a.z - b.z := rfl
@[simp] theorem neg_x [Neg F] (a : V3 F) : (-a).x = -a.x := rfl
@[simp] theorem neg_y [Neg F] (a : V3 F) : (-a).y = -a.y := rfl
@[simp] theorem neg_z [Neg F] (a : V3 F) : (-a).z = -a.z := rfl
@[simp] theorem zero_x [Zero F] : (0 : V3 F).x = 0 := rfl
@[simp] theorem zero_y [Zero F] : (0 : V3 F).y = 0 := rfl
@[simp] theorem zero_z [Zero F] : (0 : V3 F).z = 0 := rfl
@[simp] theorem smul_x [Mul F] (s : F) (a : V3 F) : (smul s a).x = s * a.x := rfl
@[simp] theorem smul_y [Mul F] (s : F) (a : V3 F) : (smul s a).y = s * a.y := rfl
@[simp] theorem smul_z [Mul F] (s : F) (a : V3 F) : (smul s a).z = s * a.z := rfl
@[simp] theorem map_x {E : Type*} (f : F → E) (a : V3 F) : (map f a).x = f a.x := rfl
@[simp] theorem map_y {E : Type*} (f : F → E) (a : V3 F) : (map f a).y = f a.y := rfl
@[simp] theorem map_z {E : Type*} (f : F → E) (a : V3 F) : (map f a).z = f a.z := rfl
end V3

/-- `matrix3x3` (libctl): columns `c0 c1 c2`. -/
@[ext] structure M3 (F : Type*) where
  c0 : V3 F
  c1 : V3 F
  c2 : V3 F
deriving DecidableEq, Repr

namespace M3
variable {F : Type*}

/-- `matrix3x3_vector3_mult`: the matrix applied to a column vector. -/
def mulVec [Add F] [Mul F] (m : M3 F) (v : V3 F) : V3 F :=
  ⟨m.c0.x * v.x + m.c1.x * v.y + m.c2.x * v.z,
   m.c0.y * v.x + m.c1.y * v.y + m.c2.y * v.z,
   m.c0.z * v.x + m.c1.z * v.y + m.c2.z * v.z⟩
/-- `matrix3x3_transpose`. -/
def transpose (m : M3 F) : M3 F :=
  ⟨⟨m.c0.x, m.c1.x, m.c2.x⟩, ⟨m.c0.y, m.c1.y, m.c2.y⟩, ⟨m.c0.z, m.c1.z, m.c2.z⟩⟩
/-- `matrix3x3_mult`. -/
def mul [Add F] [Mul F] (a b : M3 F) : M3 F := ⟨a.mulVec b.c0, a.mulVec b.c1, a.mulVec b.c2⟩
/-- `matrix3x3_determinant`. -/
def det [Sub F] [Add F] [Mul F] (m : M3 F) : F :=
  m.c0.x * m.c1.y * m.c2.z - m.c2.x * m.c1.y * m.c0.z +
  m.c1.x * m.c2.y * m.c0.z + m.c0.y * m.c1.z * m.c2.x -
  m.c1.x * m.c0.y * m.c2.z - m.c2.y * m.c1.z * m.c0.x
/-- The identity matrix. -/
def one [Zero F] [One F] : M3 F := ⟨⟨1, 0, 0⟩, ⟨0, 1, 0⟩, ⟨0, 0, 1⟩⟩
end M3

end Mpb

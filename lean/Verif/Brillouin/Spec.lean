import Verif.Brillouin.Model

namespace Mpb.Brillouin.Spec

variable {F : Type*} [Field F] [LinearOrder F]

/-- The vector with integer components `a b c`. -/
def ivec (a b c : ℤ) : V3 F := ⟨(a : F), (b : F), (c : F)⟩

/-- Two k-points (in the reciprocal basis) are equivalent: they differ by a reciprocal lattice vector. -/
def Equivalent (k r : V3 F) : Prop := ∃ a b c : ℤ, r = k + ivec a b c

/-- Squared Euclidean length of the Cartesian vector with reciprocal coordinates `k`. -/
def lenSq (B : M3 F) (k : V3 F) : F :=
  let v := B.mulVec k
  v.x ^ 2 + v.y ^ 2 + v.z ^ 2

/-- `r` lies in the first Brillouin zone: no equivalent point is closer to the origin. -/
def InFirstZone (B : M3 F) (r : V3 F) : Prop := ∀ r', Equivalent r r' → lenSq B r ≤ lenSq B r'

/-- No shift by a vector with components in `{-1,0,1}` brings `r` closer to the origin. -/
def LocallyMinimal (B : M3 F) (r : V3 F) : Prop :=
  ∀ a b c : ℤ, |a| ≤ 1 → |b| ≤ 1 → |c| ≤ 1 → lenSq B r ≤ lenSq B (r + ivec a b c)

/-- The reciprocal basis vectors are linearly independent (there is an inverse matrix). -/
def Nonsingular (B : M3 F) : Prop := ∃ C : M3 F, ∀ v, C.mulVec (B.mulVec v) = v

/-- The lattice has a Selling-reduced (obtuse superbase) basis `t1 t2 t3`, given by integer coordinates in the reciprocal
basis, whose subset sums all have coordinates in `{-1,0,1}`: `t1 t2 t3` generate every integer vector, and the Cartesian
vectors of `t1`, `t2`, `t3` and `-(t1+t2+t3)` make no acute angle with each other.  Orthogonal bases (simple cubic,
tetragonal, orthorhombic) and the usual primitive bases of the bcc, fcc and hexagonal lattices satisfy this. -/
def SellingReduced (B : M3 F) : Prop :=
  ∃ t1 t2 t3 : V3 ℤ,
    (∀ a b c : ℤ, ∃ n1 n2 n3 : ℤ, a = n1 * t1.x + n2 * t2.x + n3 * t3.x ∧ b = n1 * t1.y + n2 * t2.y + n3 * t3.y ∧
      c = n1 * t1.z + n2 * t2.z + n3 * t3.z) ∧
    (∀ s1 s2 s3 : ℤ, (s1 = 0 ∨ s1 = 1) → (s2 = 0 ∨ s2 = 1) → (s3 = 0 ∨ s3 = 1) →
      |s1 * t1.x + s2 * t2.x + s3 * t3.x| ≤ 1 ∧ |s1 * t1.y + s2 * t2.y + s3 * t3.y| ≤ 1 ∧
      |s1 * t1.z + s2 * t2.z + s3 * t3.z| ≤ 1) ∧
    let u := fun t : V3 ℤ => B.mulVec (ivec t.x t.y t.z)
    (u t1).dot (u t2) ≤ 0 ∧ (u t1).dot (u t3) ≤ 0 ∧ (u t2).dot (u t3) ≤ 0 ∧
    0 ≤ (u t1).dot (u t1 + u t2 + u t3) ∧ 0 ≤ (u t2).dot (u t1 + u t2 + u t3) ∧ 0 ≤ (u t3).dot (u t1 + u t2 + u t3)

end Mpb.Brillouin.Spec

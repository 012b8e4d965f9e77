import Verif.Field.PointModel
import Verif.Field.EnergyModel

/-!
# Model of `transformed-overlap` and `compute-symmetries` (mpb/transform.c)

The complex serial build (in the others the functions end the program, mpb/transform.c:64-85).  Numbers are exact.  `none` is a read outside
the field array.
-/

namespace Mpb.Transform
open Mpb.Field Mpb.Maxwell

/-- `matrix3x3_inverse` (libctl, external): the transposed cofactors divided by the determinant. -/
noncomputable def inverse (m : M3 ℝ) : M3 ℝ :=
  let d := m.det
  ⟨⟨(m.c1.y * m.c2.z - m.c2.y * m.c1.z) / d, (m.c2.y * m.c0.z - m.c0.y * m.c2.z) / d, (m.c0.y * m.c1.z - m.c1.y * m.c0.z) / d⟩,
   ⟨(m.c2.x * m.c1.z - m.c1.x * m.c2.z) / d, (m.c0.x * m.c2.z - m.c2.x * m.c0.z) / d, (m.c1.x * m.c0.z - m.c0.x * m.c1.z) / d⟩,
   ⟨(m.c1.x * m.c2.y - m.c2.x * m.c1.y) / d, (m.c2.x * m.c0.y - m.c0.x * m.c2.y) / d, (m.c0.x * m.c1.y - m.c1.x * m.c0.y) / d⟩⟩

/-- What the functions use of the globals: the grid, `geometry_lattice.size`, `geometry_lattice.basis`, `cur_kvector`, `Vol`, the media. -/
structure Ctx where
  S : Shape
  size : V3 ℝ
  basis : M3 ℝ
  k : V3 ℝ
  vol : ℝ
  epsInv : ℕ → HMat
  muInv : Option (ℕ → HMat)

variable (C : Ctx)

/-- One coordinate of the point, mpb/transform.c:90-95,124-126: `i * s - c`. -/
noncomputable def coord (n : ℕ) (size : ℝ) (i : ℕ) : ℝ := i * (size / n) - (if n ≤ 1 then 0 else size * 0.5)

/-- `p`, mpb/transform.c:124-126. -/
noncomputable def point (i1 i2 i3 : ℕ) : V3 ℝ := ⟨coord C.S.nx C.size.x i1, coord C.S.ny C.size.y i2, coord C.S.nz C.size.z i3⟩

/-- A real matrix times a complex vector, written out in mpb/transform.c:137-142. -/
noncomputable def rot (m : M3 ℝ) (v : V3 ℂ) : V3 ℂ :=
  ⟨⟨m.c0.x * v.x.re + m.c1.x * v.y.re + m.c2.x * v.z.re, m.c0.x * v.x.im + m.c1.x * v.y.im + m.c2.x * v.z.im⟩,
   ⟨m.c0.y * v.x.re + m.c1.y * v.y.re + m.c2.y * v.z.re, m.c0.y * v.x.im + m.c1.y * v.y.im + m.c2.y * v.z.im⟩,
   ⟨m.c0.z * v.x.re + m.c1.z * v.y.re + m.c2.z * v.z.re, m.c0.z * v.x.im + m.c1.z * v.y.im + m.c2.z * v.z.im⟩⟩

/-- `curfield[3*i .. 3*i+2]`. -/
def vecAt (data : List ℝ) (i : ℕ) : Option (V3 ℂ) := do
  let a ← data[6 * i]?
  let b ← data[6 * i + 1]?
  let c ← data[6 * i + 2]?
  let d ← data[6 * i + 3]?
  let e ← data[6 * i + 4]?
  let f ← data[6 * i + 5]?
  pure ⟨⟨a, b⟩, ⟨c, d⟩, ⟨e, f⟩⟩

/-- `CASSIGN_CONJ_MULT(a, b, c)`, src/matrices/scalar.h:67-72. -/
noncomputable def conjMult (b c : ℂ) : ℂ := ⟨b.re * c.re + b.im * c.im, b.re * c.im - b.im * c.re⟩

/-- The body of the loop, mpb/transform.c:119-173, for the point `p`, with `kv` the scaled k vector, `invW` and `Wc` as in
mpb/transform.c:102-110.  `energyField` is the same choice as in mpb/transform.c:149-159. -/
noncomputable def body (ty : Char) (data : List ℝ) (kv w : V3 ℝ) (invW Wc : M3 ℝ) (i1 i2 i3 : ℕ) (acc : ℂ) : Option ℂ := do
  let idx := (i1 * C.S.ny + i2) * C.S.nz + i3
  let p := point C i1 i2 i3
  let pt := invW.mulVec (p - w)
  let ftemp ← blochFieldPoint C.S C.size pt data
  let ft := rot Wc ftemp
  let v ← vecAt data idx
  let f := energyField ty C.epsInv C.muInv idx v
  let integrand := conjMult f.x ft.x + conjMult f.y ft.y + conjMult f.z ft.z
  let dphi := kv.x * (pt.x - p.x) + kv.y * (pt.y - p.y) + kv.z * (pt.z - p.z)
  let phase : ℂ := ⟨Real.cos dphi, Real.sin dphi⟩
  pure (acc + integrand * phase)

/-- A `for` loop. -/
def loop (n : ℕ) (f : ℕ → ℂ → Option ℂ) (acc : ℂ) : Option ℂ := (List.range n).foldlM (fun a i => f i a) acc

/-- `transformed_overlap`, mpb/transform.c:50-188.  `ty` is the current field (`none`: none).  The test of the determinant is
mpb/transform.c:98; the messages are left out. -/
noncomputable def transformedOverlap (ty : Option Char) (data : List ℝ) (W : M3 ℝ) (w : V3 ℝ) : Option ℂ :=
  match ty with
  | none => some 0
  | some ty =>
    if ty ≠ 'd' ∧ ty ≠ 'b' then some 0
    else if |(|W.det| - 1)| > 1e-12 then some 0
    else
      let invW := inverse W
      let Wc := (C.basis.mul W).mul (inverse C.basis)
      let kv : V3 ℝ := ⟨C.k.x * (2 * Real.pi / C.size.x), C.k.y * (2 * Real.pi / C.size.y), C.k.z * (2 * Real.pi / C.size.z)⟩
      (loop C.S.nx (fun i1 => loop C.S.ny fun i2 => loop C.S.nz fun i3 => body C ty data kv w invW Wc i1 i2 i3) 0).map fun s =>
        let s := s * ((C.vol / (C.S.nx * C.S.ny * C.S.nz : ℕ) : ℝ) : ℂ)
        if ty = 'b' then s * ((W.det : ℝ) : ℂ) else s

/-- The field array after `get_bfield` as a list of reals. -/
def fieldList (N : ℕ) (F : ℕ → ℂ) : List ℝ := (List.range (6 * N)).map (toReals F)

/-- `compute_symmetries`, mpb/transform.c:199-210, with `compute_symmetry`, mpb/transform.c:190-197: for every band the B field is loaded
(`loaded b`, bands counted from 0) and the overlap computed. -/
noncomputable def computeSymmetries (numBands : ℕ) (loaded : ℕ → List ℝ) (W : M3 ℝ) (w : V3 ℝ) : Option (List ℂ) :=
  (List.range numBands).mapM fun ib => transformedOverlap C (some 'b') (loaded ib) W w

end Mpb.Transform

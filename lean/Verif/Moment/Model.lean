import Verif.Tensor.Model
import Mathlib.Analysis.SpecialFunctions.Trigonometric.Basic

/-!
# Model of the spherical meshes (src/util/sphere-quad.c) and of `get_moment_mesh` (src/maxwell/maxwell_eps.c:339-400)

sphere-quad.c is a program that prints the table `sphere_quad[3][NQUAD][4]` included by maxwell_eps.c.  Numbers are exact reals:
the decimal constant `K_PI` stands for π and the table holds the numbers before printing.  Entries are pairs (point, weight).
-/

namespace Mpb.Moment
open Mpb.Tensor

/-- An entry of the table: the point and its weight. -/
abbrev Entry := V3 ℝ × ℝ

/-- The macro `SHIFT3`, sphere-quad.c:27. -/
def shift3 (p : V3 ℝ) : V3 ℝ := ⟨p.z, p.x, p.y⟩

/-- State of the nested loops: the variables `x0, y0, z0` and the entries stored so far. -/
abbrev LoopSt := V3 ℝ × List Entry

/-- `x[n] = x0; y[n] = y0; z[n] = z0; weight[n++] = w;` -/
def store (w : ℝ) (s : LoopSt) : LoopSt := (s.1, s.2 ++ [(s.1, w)])

/-- `SHIFT3(x0,y0,z0)` followed by a store. -/
def shiftStore (w : ℝ) (s : LoopSt) : LoopSt := store w (shift3 s.1, s.2)

/-- `for (i = 0; i < n; ++i)` around a body. -/
def times (body : LoopSt → LoopSt) : ℕ → LoopSt → LoopSt
  | 0, s => s
  | n + 1, s => times body n (body s)

/-- `x0 = -x0;` -/
def flipX (s : LoopSt) : LoopSt := (⟨-s.1.x, s.1.y, s.1.z⟩, s.2)
/-- `y0 = -y0;` -/
def flipY (s : LoopSt) : LoopSt := (⟨s.1.x, -s.1.y, s.1.z⟩, s.2)
/-- `z0 = -z0;` -/
def flipZ (s : LoopSt) : LoopSt := (⟨s.1.x, s.1.y, -s.1.z⟩, s.2)

/-- sphere-quad.c:62-70: the vertices of the octahedron. -/
noncomputable def part1 (l : List Entry) : List Entry :=
  (times (fun s => times (shiftStore (9216 / 725760)) 3 (flipX s)) 2 (⟨1, 0, 0⟩, l)).2

/-- sphere-quad.c:72-83: the middles of the edges of the cube. -/
noncomputable def part2 (l : List Entry) : List Entry :=
  (times (fun s => times (fun s => times (shiftStore (16384 / 725760)) 3 (flipY s)) 2 (flipX s)) 2
    (⟨Real.sqrt (1 / 2), Real.sqrt (1 / 2), 0⟩, l)).2

/-- sphere-quad.c:85-96: the vertices of the cube. -/
noncomputable def part3 (l : List Entry) : List Entry :=
  (times (fun s => times (fun s => times (fun s => store (15309 / 725760) (flipZ s)) 2 (flipY s)) 2 (flipX s)) 2
    (⟨Real.sqrt (1 / 3), Real.sqrt (1 / 3), Real.sqrt (1 / 3)⟩, l)).2

/-- sphere-quad.c:98-112: the 24 remaining points. -/
noncomputable def part4 (l : List Entry) : List Entry :=
  (times (fun s => times (fun s => times (fun s => times (shiftStore (14641 / 725760)) 3 (flipZ s)) 2 (flipY s)) 2 (flipX s)) 2
    (⟨Real.sqrt (1 / 11), Real.sqrt (1 / 11), 3 * Real.sqrt (1 / 11)⟩, l)).2

/-- `spherical_quadrature_points` with `num_sq_pts = 50`, sphere-quad.c:39-113, 169-172 (`NQUAD3` is 50; the formulas with 12 and 72
points are not used).  `none` is the failing `CHECK` at the end. -/
noncomputable def sphericalQuadrature : Option (List Entry) :=
  let l := part4 (part3 (part2 (part1 [])))
  if l.length = 50 then some l else none

/-- The circle, sphere-quad.c:242-253 (`NQUAD2` is 12). -/
noncomputable def circle : List Entry :=
  (List.range 12).map fun i : ℕ =>
    ((if i = 0 then ⟨1, 0, 0⟩ else if 2 * i = 12 then ⟨-1, 0, 0⟩ else if 4 * i = 12 then ⟨0, 1, 0⟩ else if 4 * i = 3 * 12 then ⟨0, -1, 0⟩
      else ⟨Real.cos (2 * i * Real.pi / 12), Real.sin (2 * i * Real.pi / 12), 0⟩ : V3 ℝ), (1 : ℝ) / 12)

/-- `dist2`, sphere-quad.c:183-187. -/
def dist2 (p q : V3 ℝ) : ℝ := (p.x - q.x) * (p.x - q.x) + (p.y - q.y) * (p.y - q.y) + (p.z - q.z) * (p.z - q.z)

/-- The loop over `k`, sphere-quad.c:201-206: `d2min` and `d2sum`.  `fl` is the conversion to `float`. -/
noncomputable def distances (fl : ℝ → ℝ) (a : ℕ → Entry) (j : ℕ) (i : ℕ) : ℝ × ℝ :=
  open Classical in
  (List.range i).foldl (fun s k => (if s.1 < fl (dist2 (a k).1 (a j).1) then s.1 else fl (dist2 (a k).1 (a j).1), s.2 + fl (dist2 (a k).1 (a j).1)))
    (10 ^ 20, 0)

/-- The loop over `j`, sphere-quad.c:196-212: the final `jmax`. -/
noncomputable def farthest (fl : ℝ → ℝ) (a : ℕ → Entry) (n i : ℕ) : ℕ :=
  open Classical in
  ((List.range' i (n - i)).foldl (fun (s : ℝ × ℝ × ℕ) j =>
    let d := distances fl a j i
    if d.1 > s.1 ∨ (d.1 = s.1 ∧ d.2 > s.2.1) then (d.1, d.2, j) else s) (0, 0, i)).2.2

/-- The exchange, sphere-quad.c:213-215. -/
def exchange (a : ℕ → Entry) (i j : ℕ) : ℕ → Entry := Function.update (Function.update a i (a j)) j (a i)

/-- `sort_by_distance`, sphere-quad.c:192-218, on the first `n` entries of an array. -/
noncomputable def sortByDistance (fl : ℝ → ℝ) (n : ℕ) (a : ℕ → Entry) : ℕ → Entry :=
  (List.range' 1 (n - 1)).foldl (fun a i => exchange a i (farthest fl a n i)) a

/-- A list as an array, sorted by `sort_by_distance`. -/
noncomputable def sorted (fl : ℝ → ℝ) (l : List Entry) : List Entry :=
  (List.range l.length).map (sortByDistance fl l.length fun i => l.getD i (⟨0, 0, 0⟩, 0))

/-- The table printed by `main`, sphere-quad.c:222-275: `sphere_quad[rank-1]`, restricted to the first `num_sphere_quad[rank-1]` entries. -/
noncomputable def sphereQuad (fl : ℝ → ℝ) (rank : ℕ) : Option (List Entry) :=
  match rank with
  | 1 => some [(⟨1, 0, 0⟩, 1 / 2), (⟨-1, 0, 0⟩, 1 / 2)]
  | 2 => some (sorted fl circle)
  | _ => sphericalQuadrature.map (sorted fl)

/-- `rank`, maxwell_eps.c:348. -/
def rankOf (n : V3 ℕ) : ℕ := if n.z > 1 then 3 else if n.y > 1 then 2 else 1

/-- `moment_mesh_r`, maxwell_eps.c:301-303, 350-351. -/
noncomputable def meshR (rank : ℕ) : ℝ :=
  if rank = 1 then 1 / 2 else if rank = 2 then 7071067811865475 / 10000000000000000 else 8660254037844386 / 10000000000000000

/-- `max_diam`, maxwell_eps.c:371-375: `R` has the lattice vectors as columns. -/
noncomputable def maxDiam (rank : ℕ) (n : V3 ℕ) (R : M3 ℝ) : ℝ :=
  let d := fun (c : V3 ℝ) (n : ℕ) => Real.sqrt (c.x * c.x + c.y * c.y + c.z * c.z) / n
  ([d R.c0 n.x, d R.c1 n.y, d R.c2 n.z].take rank).foldl max 0

/-- `get_moment_mesh`, maxwell_eps.c:339-400: offsets in lattice coordinates with their weights, `none` if a `CHECK` fails.  `R` and `G`
have the lattice and the reciprocal vectors as columns. -/
noncomputable def getMomentMesh (fl : ℝ → ℝ) (n : V3 ℕ) (R G : M3 ℝ) : Option (List Entry) :=
  open Classical in
  let rank := rankOf n
  let r := meshR rank
  (sphereQuad fl rank).bind fun tbl =>
  let mesh : List Entry := tbl.map fun e => (⟨e.1.x * r, e.1.y * r, e.1.z * r⟩, e.2)
  if mesh.length ≤ 50 then
    if |(mesh.map Prod.snd).sum - 1| < small then
      let d := maxDiam rank n R
      let mesh : List Entry := mesh.map fun e => (⟨e.1.x * d, e.1.y * d, e.1.z * d⟩, e.2)
      if ∀ e ∈ mesh, |(e.1.x * e.1.x + e.1.y * e.1.y + e.1.z * e.1.z) - d * d * (r * r)| < small then
        if |(mesh.map fun e => e.1.x).sum| + |(mesh.map fun e => e.1.y).sum| + |(mesh.map fun e => e.1.z).sum| < small then
          some (mesh.map fun e => (⟨G.c0.dot e.1, G.c1.dot e.1, G.c2.dot e.1⟩, e.2))
        else none
      else none
    else none
  else none

end Mpb.Moment

import Verif.MatGrid.Model

/-!
# Model of the user's tools for material grids

`randomize-material-grid!`, `save-material-grid`, `load-material-grid!` (mpb/material_grid.c:688-783) and the coordinates at which the
default material's grid is evaluated.  Numbers are exact; `rand()/RAND_MAX` is any number in `[0, 1]` for each call.
-/

namespace Mpb.MatGrid

/-- The body of the loop at mpb/material_grid.c:705-708. -/
noncomputable def bounce (u : ℝ) : ℝ :=
  let u := if u > 1 then 1 - u else u
  if u < 0 then -u else u

open Classical in
/-- The loop at mpb/material_grid.c:705-708, for at most `fuel` iterations; `none`: it has not ended by then. -/
noncomputable def bounceLoop : ℕ → ℝ → Option ℝ
  | 0, u => if u < 0 ∨ u > 1 then none else some u
  | fuel + 1, u => if u < 0 ∨ u > 1 then bounceLoop fuel (bounce u) else some u

/-- One number of the grid, mpb/material_grid.c:704: `r` is `rand()/RAND_MAX`. -/
noncomputable def perturb (v noise r : ℝ) : ℝ := v + noise * (-1 + r * 2)

/-- The loop over the grid at mpb/material_grid.c:703-710; `r` are the random numbers, `fuel` bounds the inner loop. -/
noncomputable def randomizeLoop (fuel : ℕ) (noise : ℝ) : List ℝ → List ℝ → Option (List ℝ)
  | [], _ => some []
  | _ :: _, [] => none
  | v :: vs, r :: rs => do
    let u ← bounceLoop fuel (perturb v noise r)
    let us ← randomizeLoop fuel noise vs rs
    return u :: us

/-- `randomize_material_gridB`, mpb/material_grid.c:697-714, on all processes: the first one computes, the others receive its numbers
(mpb/material_grid.c:688-695). -/
noncomputable def randomize {P : ℕ} (fuel : ℕ) (noise : ℝ) (rs : List ℝ) (grids : Fin (P + 1) → List ℝ) : Option (Fin (P + 1) → List ℝ) := do
  let m ← randomizeLoop fuel noise (grids 0) rs
  return fun _ => m

/-- A dataset of an HDF5 file. -/
structure Dataset where
  dims : List ℕ
  data : Arr

/-- `save_material_grid`, mpb/material_grid.c:718-741.  The dataset has the rank of line 729, and `matrixio_write_real_data` writes the
array's numbers in their order. -/
def saveGrid (nx ny nz : ℕ) (grid : Arr) : Dataset :=
  let rank := if nz = 1 then (if ny = 1 then 1 else 2) else 3
  ⟨[nx, ny, nz].take rank, grid⟩

/-- `dims` after mpb/material_grid.c:747, 753: initialised to 1, the first `rank` ones replaced; `none` if the rank is above 3
(the `CHECK` at src/matrixio/matrixio.c:823). -/
def fileDims : List ℕ → Option (ℕ × ℕ × ℕ)
  | [] => some (1, 1, 1)
  | [a] => some (a, 1, 1)
  | [a, b] => some (a, b, 1)
  | [a, b, c] => some (a, b, c)
  | _ => none

/-- mpb/material_grid.c:760-762. -/
noncomputable def superSize (s : ℝ) : ℝ := if s > 0 then s else 1

/-- The fractional part `modf` returns (the sign is the argument's). -/
noncomputable def modf (a : ℝ) : ℝ := a - truncZ a

/-- mpb/material_grid.c:770 (one coordinate). -/
noncomputable def loadCoord (i n : ℕ) (s : ℝ) : ℝ := modf ((i + 0.5) * (superSize s / n))

/-- mpb/material_grid.c:775-776. -/
noncomputable def clamp (v : ℝ) : ℝ := if v > 1 then 1 else if v < 0 then 0 else v

/-- Writing an entry of an array. -/
def Arr.write (a : Arr) (i : ℕ) (v : ℝ) : Option Arr := if i < a.len then some ⟨a.len, Function.update a.get i v⟩ else none

/-- All pixels in the order of the loops at mpb/material_grid.c:765-767. -/
def pixels (nx ny nz : ℕ) : List (ℕ × ℕ × ℕ) :=
  (List.range nx).flatMap fun ix => (List.range ny).flatMap fun iy => (List.range nz).map fun iz => (ix, iy, iz)

/-- The value of a pixel, mpb/material_grid.c:770-776. -/
noncomputable def loadVal (d : ℕ × ℕ × ℕ) (data : Arr) (nx ny nz : ℕ) (s : V3 ℝ) (p : ℕ × ℕ × ℕ) : Option ℝ :=
  (linearInterpolate ⟨loadCoord p.1 nx s.x, loadCoord p.2.1 ny s.y, loadCoord p.2.2 nz s.z⟩ data d.1 d.2.1 d.2.2 1).map clamp

/-- The body of the loops, mpb/material_grid.c:770-777. -/
noncomputable def loadStep (d : ℕ × ℕ × ℕ) (data : Arr) (nx ny nz : ℕ) (s : V3 ℝ) (grid : Arr) (p : ℕ × ℕ × ℕ) : Option Arr := do
  let v ← loadVal d data nx ny nz s p
  grid.write ((p.1 * ny + p.2.1) * nz + p.2.2) v

/-- `load_material_gridB`, mpb/material_grid.c:743-785, on the process that reads the file. -/
noncomputable def loadGrid (nx ny nz : ℕ) (grid : Arr) (file : Dataset) (s : V3 ℝ) : Option Arr := do
  let d ← fileDims file.dims
  (pixels nx ny nz).foldlM (loadStep d file.data nx ny nz s) grid

/-- One coordinate of mpb/material_grid.c:116-118: where the default material's grid is evaluated. -/
noncomputable def defaultCoord (noSize : Bool) (p size : ℝ) : ℝ := if noSize then 0 else p / size

/-- mpb/material_grid.c:116-118. -/
noncomputable def defaultPos (noSize : V3 Bool) (p size : V3 ℝ) : V3 ℝ :=
  ⟨defaultCoord noSize.x p.x size.x, defaultCoord noSize.y p.y size.y, defaultCoord noSize.z p.z size.z⟩

end Mpb.MatGrid

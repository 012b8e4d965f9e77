import Verif.Tensor.Model
import Verif.MatGrid.Model

/-!
# Model of the materials (mpb/medium.c, mpb/epsilon.c and mpb/mu.c)

mpb/mu.c is generated from mpb/epsilon.c by replacing "epsilon" by "mu" (mpb/Makefile.am:74-75); the model has one function with the property
asked for as an argument.  Numbers are exact reals.  A material function's result is a material; one that returns material functions
without end is not represented.
-/

namespace Mpb.Medium

open Mpb.Tensor Mpb.MatGrid

/-- The tensor of an anisotropic medium as given by the user: diagonal, off-diagonal, and the imaginary part of the off-diagonal given
separately (mpb/mpb.scm.in:42-50). -/
structure Aniso where
  diag : V3 ℝ
  off : V3 ℂ
  offIm : V3 ℝ

/-- A `material_type` (mpb/mpb.scm.in:33-86). -/
inductive Material where
  | medium (eps mu : ℝ)
  | anisotropic (eps mu : Aniso)
  | grid (g : MGrid)
  | func (f : V3 ℝ → Material)
  | self

/-- Which property: mpb/epsilon.c or mpb/mu.c. -/
inductive Which where
  | eps
  | mu

/-- The imaginary parts of the off-diagonal entries, mpb/epsilon.c:52-60. -/
def Aniso.im (a : Aniso) : V3 ℝ := ⟨a.off.x.im + a.offIm.x, a.off.y.im + a.offIm.y, a.off.z.im + a.offIm.z⟩

/-- The tensor of an anisotropic medium, mpb/epsilon.c:44-71; `herm`: the build `WITH_HERMITIAN_EPSILON`. -/
noncomputable def Aniso.tensor (herm : Bool) (a : Aniso) : Res HMat :=
  if herm then .ok ⟨a.diag.x, a.diag.y, a.diag.z, ⟨a.off.x.re, a.im.x⟩, ⟨a.off.y.re, a.im.y⟩, ⟨a.off.z.re, a.im.z⟩⟩
  else open Classical in
    if a.im.x = 0 ∧ a.im.y = 0 ∧ a.im.z = 0 then .ok ⟨a.diag.x, a.diag.y, a.diag.z, a.off.x.re, a.off.y.re, a.off.z.re⟩ else .checkFailed

/-- A multiple of the identity. -/
def scalar (x : ℝ) : HMat := ⟨x, x, x, 0, 0, 0⟩

open Classical in
/-- `material_epsilon` and `material_mu`, mpb/epsilon.c:22-84: the tensor and its inverse. -/
noncomputable def materialTensor (herm : Bool) (w : Which) : Material → Res (HMat × HMat)
  | .medium eps mu =>
    let v := match w with
      | .eps => eps
      | .mu => mu
    if v = 0 then .nonFinite else .ok (scalar v, scalar (1 / v))
  | .anisotropic eps mu =>
    match (match w with
      | .eps => eps
      | .mu => mu).tensor herm with
    | .ok t => match hInvert t with
      | .ok i => .ok (t, i)
      | .checkFailed => .checkFailed
      | .nonFinite => .nonFinite
    | .checkFailed => .checkFailed
    | .nonFinite => .nonFinite
  | .grid _ => .checkFailed
  | .func _ => .checkFailed
  | .self => .checkFailed

/-- The loop over material functions, mpb/epsilon.c:146-159. -/
def Material.resolve (p : V3 ℝ) : Material → Material
  | .func f => (f p).resolve p
  | m => m

/-- The material at a point before functions and grids are evaluated, and whether an object is there, mpb/epsilon.c:113-136; `stack` are the
materials of the objects that contain the point, the topmost first. -/
def pick (stack : List Material) (dflt : Material) : Material × Bool :=
  match stack with
  | [] => (dflt, false)
  | .self :: _ => (dflt, false)
  | m :: _ => (m, true)

/-- The medium made of a material grid, mpb/epsilon.c:166-178 with `make_epsilon` or `make_mu`, mpb/medium.c:45-62; `u` is `matgrid_val`. -/
noncomputable def gridMedium (w : Which) (g : MGrid) (u : ℝ) : Material :=
  match w with
  | .eps => .medium (u * (g.epsMax - g.epsMin) + g.epsMin) 1
  | .mu => .medium 1 (u * (g.muMax - g.muMin) + g.muMin)

/-- The tensor of a material at a point, mpb/epsilon.c:144-182; `u` is the value `matgrid_val` returns for a grid at this point
(`Verif.MatGrid.Model`). -/
noncomputable def evaluate (herm : Bool) (w : Which) (u : MGrid → ℝ) (p : V3 ℝ) (m : Material) : Res (HMat × HMat) :=
  match m.resolve p with
  | .grid g => materialTensor herm w (gridMedium w g (u g))
  | m => materialTensor herm w m

/-- `epsilon_func` and `mu_func`, mpb/epsilon.c:93-184.  `file` is the value read from the input file, if there is one. -/
noncomputable def tensorAt (herm : Bool) (w : Which) (file : Option (HMat × HMat)) (u : MGrid → ℝ) (p : V3 ℝ) (stack : List Material)
    (dflt : Material) : Res (HMat × HMat) :=
  let m := pick stack dflt
  match m.2, file with
  | false, some f => .ok f
  | _, _ => evaluate herm w u p m.1

open Classical in
/-- `material_has_mu`, mpb/medium.c:80-100. -/
noncomputable def materialHasMu : Material → Bool
  | .medium _ mu => mu ≠ 1
  | .anisotropic _ a => a.diag.x ≠ 1 ∨ a.diag.y ≠ 1 ∨ a.diag.z ≠ 1 ∨ a.off.x.re ≠ 0 ∨ a.off.y.re ≠ 0 ∨ a.off.z.re ≠ 0 ∨
      a.off.x.im + a.offIm.x ≠ 0 ∨ a.off.y.im + a.offIm.y ≠ 0 ∨ a.off.z.im + a.offIm.z ≠ 0
  | .grid g => g.muMin ≠ 1 ∨ g.muMax ≠ 1
  | _ => false

/-- `has_mu`, mpb/medium.c:103-114: whether `mu_file_func` is set, `force-mu?`, the default material, the materials of all objects. -/
noncomputable def hasMu (file force : Bool) (dflt : Material) (objs : List Material) : Bool :=
  file || force || materialHasMu dflt || objs.any materialHasMu

/-- The permeability the solver works with at a point, mpb/medium.c:132-136: without `set_maxwell_mu`, `mu_inv` stays `NULL` (maxwell.c:221)
and the permeability is 1 everywhere. -/
noncomputable def solverMu (herm : Bool) (file : Option (HMat × HMat)) (force : Bool) (u : MGrid → ℝ) (p : V3 ℝ) (stack : List Material)
    (dflt : Material) (objs : List Material) : Res (HMat × HMat) :=
  if hasMu file.isSome force dflt objs then tensorAt herm .mu file u p stack dflt else .ok (scalar 1, scalar 1)

end Mpb.Medium

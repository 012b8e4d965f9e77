import Verif.Solver.Block

/-!
# Model of the workspace management of `init-params` (mpb/mpb.c:385-503)

The heap is the list of live blocks (identifier, size in scalars).  One process: `local_N = alloc_N = N` (with several processes the two are functions
of the grid only, src/maxwell/maxwell.c:96-170).  `allocN > 0` is assumed (a grid has at least one point).
-/

namespace Mpb.Workspace

/-- `MAX_NWORK`, the length of the array `W` (mpb/mpb.h:49). -/
def maxNwork : ℕ := 10

/-- An `evectmatrix` (src/matrices/matrices.h:28-32): rows (`n = 2 N`), columns, allocated columns and the block of its data. -/
structure Mat where
  N : ℕ
  p : ℕ
  allocP : ℕ
  data : ℕ
  deriving DecidableEq, Repr

/-- The part of `maxwell_data` that matters: grid, `num_bands`, `mu_inv != NULL`. -/
structure Mdata where
  nx : ℕ
  ny : ℕ
  nz : ℕ
  numBands : ℕ
  mu : Bool
  deriving DecidableEq, Repr

/-- The input variables `init-params` reads: grid (after mpb/mpb.c:405-424), num-bands, eigensolver-block-size, eigensolver-nwork, and whether the materials have a
permeability (`has_mu`, mpb/medium.c:103-113). -/
structure Input where
  nx : ℕ
  ny : ℕ
  nz : ℕ
  nb : ℕ
  ebs : ℤ
  nwork : ℕ
  mu : Bool
  deriving DecidableEq, Repr

/-- The globals of mpb/mpb.c:239-243 and the heap. -/
structure St where
  live : List (ℕ × ℕ) := []
  next : ℕ := 1
  mdata : Option Mdata := none
  nworkAlloc : ℕ := 0
  H : Mat := ⟨0, 0, 0, 0⟩
  W : ℕ → Mat := fun _ => ⟨0, 0, 0, 0⟩
  Hblock : Mat := ⟨0, 0, 0, 0⟩
  muinvH : Mat := ⟨0, 0, 0, 0⟩

/-- `create_evectmatrix` with c = 2 (src/matrices/matrices.c:27-52). -/
def create (N p : ℕ) (s : St) : Mat × St :=
  (⟨N, p, p, s.next⟩, { s with live := s.live ++ [(s.next, N * 2 * p)], next := s.next + 1 })

/-- `destroy_evectmatrix` (src/matrices/matrices.c:54-57); `none`: the block is not live. -/
def destroy (m : Mat) (s : St) : Option St :=
  if s.live.any (fun b => b.1 == m.data) then some { s with live := s.live.eraseP (fun b => b.1 == m.data) } else none

/-- One iteration of the loop creating `W[i]` (mpb/mpb.c:488-490); `none`: beyond the end of the array. -/
def createW (N p : ℕ) (s : St) (i : ℕ) : Option St :=
  if i < maxNwork then
    let r := create N p s
    some { r.2 with W := Function.update r.2.W i r.1 }
  else none

/-- `have_old_fields` (mpb/mpb.c:443-446): note that the permeability is that of the old `mdata`. -/
def haveOld (q : Input) (bs : ℕ) (m : Mdata) (s : St) : Bool :=
  decide (q.nx = m.nx ∧ q.ny = m.ny ∧ q.nz = m.nz ∧ bs = s.Hblock.allocP ∧ q.nb = s.H.p ∧ q.nwork + m.mu.toNat = s.nworkAlloc)

/-- Destroying a matrix that may share its data with `H` (mpb/mpb.c:451-454). -/
def destroyOwn (m h : Mat) (s : St) : Option St := if m.data ≠ h.data then destroy m s else some s

/-- The cleanup (mpb/mpb.c:447-454). -/
def cleanup (s : St) : Option St := do
  let s1 ← destroy s.H s
  let s2 ← (List.range s.nworkAlloc).foldlM (fun a i => destroy (s.W i) a) s1
  let s3 ← destroyOwn s.Hblock s.H s2
  destroyOwn s.muinvH s.H s3

/-- The allocation (mpb/mpb.c:483-503); `nwork` is already clamped to `MAX_NWORK` (mpb/medium.c:179-183). -/
def allocate (q : Input) (bs nwork : ℕ) (s : St) : Option St := do
  let N := q.nx * q.ny * q.nz
  let h := create N q.nb s
  let s1 := { h.2 with H := h.1, nworkAlloc := nwork + q.mu.toNat }
  let s2 ← (List.range s1.nworkAlloc).foldlM (createW N bs) s1
  let s3 := if bs < q.nb then let r := create N bs s2; { r.2 with Hblock := r.1 } else { s2 with Hblock := s2.H }
  some (if q.mu = true ∧ bs < q.nb then let r := create N q.nb s3; { r.2 with muinvH := r.1 } else { s3 with muinvH := s3.H })

/-- The test and cleanup when there is a previous `mdata` (mpb/mpb.c:442-455). -/
def prepare (q : Input) (bs : ℕ) (s : St) : Option (Bool × St) :=
  match s.mdata with
  | none => some (false, s)
  | some m => if haveOld q bs m s then some (true, s) else (cleanup s).map fun t => (false, t)

/-- `init_params` (mpb/mpb.c:385-532).  `none`: a division by zero in the choice of the block size, a double free, or an access beyond the end of `W`. -/
def initParams (s : St) (q : Input) : Option St := do
  let b ← Solver.blockSize q.ebs q.nb
  let bs := b.toNat
  let r ← prepare q bs s
  let t : St := { r.2 with mdata := some ⟨q.nx, q.ny, q.nz, bs, q.mu⟩ }
  if r.1 then some t else allocate q bs (min q.nwork maxNwork) t

/-- A history of `init-params` calls. -/
def run (s : St) (qs : List Input) : Option St := qs.foldlM initParams s

/-! ## Specification -/

/-- The columns of a block: between one and all bands. -/
def Input.bs (q : Input) : ℕ := ((Solver.blockSize q.ebs q.nb).getD 0).toNat

/-- Number of work matrices the program documents: eigensolver-nwork (at most 10), one more if there is a permeability. -/
def Input.works (q : Input) (mu : Bool) : ℕ := min q.nwork maxNwork + mu.toNat

/-- A matrix for `q`'s grid with `p` columns, whose data are the live block `d`. -/
def IsMat (q : Input) (s : St) (m : Mat) (p : ℕ) : Prop :=
  m.N = q.nx * q.ny * q.nz ∧ m.p = p ∧ m.allocP = p ∧ (m.data, q.nx * q.ny * q.nz * 2 * p) ∈ s.live

/-- The blocks of all matrices in use, each once. -/
def St.owned (s : St) : List (ℕ) :=
  [s.H.data] ++ (List.range s.nworkAlloc).map (fun i => (s.W i).data) ++ (if s.Hblock.data = s.H.data then [] else [s.Hblock.data]) ++
    (if s.muinvH.data = s.H.data then [] else [s.muinvH.data])

/-- What holds for all problems: everything has the right size, nothing is leaked or shared by accident, and a block of its own is used for the bands of a block iff there is more
than one block.  `muW` is whether there is the additional work matrix a permeability needs, `muH` whether there is a separate matrix for the products of the
bands with the inverse permeability. -/
structure FitsFor (muW muH : Bool) (q : Input) (s : St) : Prop where
  mdata : s.mdata = some ⟨q.nx, q.ny, q.nz, q.bs, q.mu⟩
  bs : 1 ≤ q.bs ∧ q.bs ≤ q.nb
  H : IsMat q s s.H q.nb
  count : s.nworkAlloc = q.works muW
  fits : s.nworkAlloc ≤ maxNwork
  W : ∀ i, i < s.nworkAlloc → IsMat q s (s.W i) q.bs
  Hblock : IsMat q s s.Hblock q.bs
  Hblock_own : s.Hblock.data ≠ s.H.data ↔ q.bs < q.nb
  muinvH : IsMat q s s.muinvH q.nb
  muinvH_own : s.muinvH.data ≠ s.H.data ↔ muH = true ∧ q.bs < q.nb
  nodup : s.owned.Nodup
  noleak : s.live.map Prod.fst = s.owned

/-- The work space is exactly what the current problem needs. -/
def Fits (q : Input) (s : St) : Prop := FitsFor q.mu q.mu q s

end Mpb.Workspace

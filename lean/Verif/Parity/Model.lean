import Verif.Maxwell.Model

/-!
# Model of the parity constraints and of the k = 0 bands (maxwell_constraints.c, maxwell.c, mpb.c)

Band vectors are stored as in `Verif.Maxwell.Operator`: element `(ij*2 + c)*p + b` for planewave `ij`, polarisation `c` and
band `b`.  Scalars are complex.  A parity is a C `int`, modelled by `BitVec 32`.
-/

namespace Mpb.Parity

/-! ### Parity flags -/

/-- `EVEN_Z_PARITY (1<<0)`, maxwell.h:81. -/
def evenZ : BitVec 32 := 1#32
/-- `ODD_Z_PARITY (1<<1)`, maxwell.h:82. -/
def oddZ : BitVec 32 := 2#32
/-- `EVEN_Y_PARITY (1<<2)`, maxwell.h:83. -/
def evenY : BitVec 32 := 4#32
/-- `ODD_Y_PARITY (1<<3)`, maxwell.h:84. -/
def oddY : BitVec 32 := 8#32

/-- The C condition `if (p & mask)`. -/
def has (p mask : BitVec 32) : Prop := p &&& mask ≠ 0#32

instance (p mask : BitVec 32) : Decidable (has p mask) := by unfold has; infer_instance

open Classical in
/-- `set_maxwell_data_parity`, maxwell.c:524-535: the value stored in `d->parity`, for the Cartesian `d->current_k`. -/
noncomputable def setDataParity (currentK : V3 ℝ) (parity : BitVec 32) : BitVec 32 :=
  let parity := if has parity evenZ ∧ has parity oddZ then parity &&& ~~~(evenZ ||| oddZ) else parity
  let parity := if currentK.z ≠ 0 then parity &&& ~~~(evenZ ||| oddZ) else parity
  let parity := if has parity evenY ∧ has parity oddY then parity &&& ~~~(evenY ||| oddY) else parity
  let parity := if currentK.y ≠ 0 then parity &&& ~~~(evenY ||| oddY) else parity
  parity

/-- The parity part of the program state: the static `last_p` of `set_parity` (mpb.c:351) and, when `mdata` is not `NULL`,
`mdata->parity` and `mdata->current_k`. -/
structure PState where
  lastP : BitVec 32 := (-2 : BitVec 32)
  mdata : Option (BitVec 32 × V3 ℝ) := none

/-- `set_parity`, mpb.c:349-369.  `none`: the `CHECK` on line 363 aborts the program. -/
noncomputable def setParity (s : PState) (p : BitVec 32) : Option PState :=
  match s.mdata with
  | none => some s
  | some (_, k) =>
    let p := if p = (-1 : BitVec 32) then (if s.lastP.toInt < 0 then 0#32 else s.lastP) else p
    let dp := setDataParity k p
    if dp = p then some ⟨p, some (dp, k)⟩ else none

/-- `init_params(p, …)`, mpb.c:385-532, as far as the parity is concerned: `create_maxwell_data` (maxwell.c:62-63) stores
`NO_PARITY` and a zero `current_k`, then `set_parity(p)` (mpb.c:512) is called. -/
noncomputable def initParams (s : PState) (p : BitVec 32) : Option PState :=
  setParity { s with mdata := some (0#32, 0) } p

/-- `solve_kpoint(k)`, mpb.c:586-640, as far as the parity is concerned; `kc` is the Cartesian wavevector and
`numBandsPos` says `num_bands != 0`.  `update_maxwell_data_k` stores `current_k` and re-validates the parity
(maxwell.c:437-441); `none`: the `CHECK` of mpb.c:636 aborts the program. -/
noncomputable def solveK (s : PState) (numBandsPos : Bool) (kc : V3 ℝ) : Option PState :=
  if numBandsPos then
    match s.mdata with
    | none => some s
    | some (prev, _) =>
      let dp := setDataParity kc prev
      if dp = prev then some { s with mdata := some (dp, kc) } else none
  else some s

/-- The commands of a control script that act on the parity. -/
inductive Cmd where
  | setParity (p : BitVec 32)
  | initParams (p : BitVec 32)
  | solveK (numBandsPos : Bool) (kc : V3 ℝ)

noncomputable def step (s : PState) : Cmd → Option PState
  | .setParity p => setParity s p
  | .initParams p => initParams s p
  | .solveK n k => solveK s n k

/-- A script, run until it ends or the program aborts. -/
noncomputable def run (s : PState) : List Cmd → Option PState
  | [] => some s
  | c :: cs => (step s c).bind fun s' => run s' cs

/-- `parity_string`, mpb.c:325-338. -/
def parityString (parity : BitVec 32) (nz : ℕ) : String :=
  (if has parity evenZ then (if nz = 1 then "te" else "zeven")
   else if has parity oddZ then (if nz = 1 then "tm" else "zodd") else "") ++
  (if has parity evenY then "yeven" else if has parity oddY then "yodd" else "")

/-! ### Projection loops -/

/-- Grid description used by the constraints: `nx = local_nx`, `ny`, `nz`, `other_dims`, `last_dim`. -/
structure Grid where
  nx : ℕ
  ny : ℕ
  nz : ℕ

/-- `rank`, maxwell.c:35: `(nz == 1) ? (ny == 1 ? 1 : 2) : 3`, and `last_dim = n[rank - 1]`, maxwell.c:65. -/
def Grid.lastDim (g : Grid) : ℕ := if g.nz = 1 then (if g.ny = 1 then g.nx else g.ny) else g.nz

/-- `other_dims = local_N / last_dim`, maxwell.c:75. -/
def Grid.otherDims (g : Grid) : ℕ := g.nx * g.ny * g.nz / g.lastDim

/-- The body of the band loop of the 3d projection, maxwell_constraints.c:104-120 (`su = zparity`) and
maxwell_constraints.c:225-241 (`su = -yparity`): `u, v, u2, v2` are read before the four assignments. -/
noncomputable def pairStep (su : ℝ) (p : ℕ) (mem : ℕ → ℂ) (c c2 b : ℕ) : ℕ → ℂ :=
  let u := mem ((c * 2) * p + b)
  let v := mem ((c * 2 + 1) * p + b)
  let u2 := mem ((c2 * 2) * p + b)
  let v2 := mem ((c2 * 2 + 1) * p + b)
  writes [((c * 2) * p + b, ⟨0.5 * (u.re + su * u2.re), 0.5 * (u.im + su * u2.im)⟩),
    ((c * 2 + 1) * p + b, ⟨0.5 * (v.re - su * v2.re), 0.5 * (v.im - su * v2.im)⟩),
    ((c2 * 2) * p + b, ⟨0.5 * (u2.re + su * u.re), 0.5 * (u2.im + su * u.im)⟩),
    ((c2 * 2 + 1) * p + b, ⟨0.5 * (v2.re - su * v.re), 0.5 * (v2.im - su * v.im)⟩)] mem

/-- `(j > 0 ? n - j : 0)`, maxwell_constraints.c:102, 160, 220, 277. -/
def mir (n j : ℕ) : ℕ := if j > 0 then n - j else 0

/-- The parity sign, maxwell_constraints.c:71-72 and 204-205. -/
def parSign (parity even odd : BitVec 32) : ℤ := if has parity even then 1 else if has parity odd then -1 else 0

/-- `maxwell_zparity_constraint`, maxwell_constraints.c:67-124.  The loop `for (j = 0; 2*j <= nz; ++j)` runs over
`j < nz/2 + 1`. -/
noncomputable def zparityConstraint (g : Grid) (parity : BitVec 32) (p : ℕ) (X : ℕ → ℂ) : ℕ → ℂ :=
  let zparity := parSign parity evenZ oddZ
  if zparity = 0 then X
  else if g.nz > 1 then
    let nxy := g.otherDims
    let nz := g.lastDim
    (loop3 nxy (nz / 2 + 1) p).foldl
      (fun mem t => pairStep zparity p mem (t.1 * nz + t.2.1) (t.1 * nz + mir nz t.2.1) t.2.2) X
  else
    let nxy := g.otherDims * g.lastDim
    if zparity = 1 then
      writes ((loop2 nxy p).map fun t => ((t.1 * 2 + 1) * p + t.2, (0 : ℂ))) X
    else if zparity = -1 then
      writes ((loop2 nxy p).map fun t => ((t.1 * 2) * p + t.2, (0 : ℂ))) X
    else X

/-- `maxwell_yparity_constraint`, maxwell_constraints.c:200-246. -/
noncomputable def yparityConstraint (g : Grid) (parity : BitVec 32) (p : ℕ) (X : ℕ → ℂ) : ℕ → ℂ :=
  let yparity := parSign parity evenY oddY
  if yparity = 0 then X
  else
    ((loop2 g.nx (g.ny / 2 + 1)).flatMap fun ij => (loop2 g.nz p).map fun kb => (ij, kb)).foldl
      (fun mem t =>
        let ij := t.1.1 * g.ny + t.1.2
        let ij2 := t.1.1 * g.ny + mir g.ny t.1.2
        pairStep (-yparity) p mem (ij * g.nz + t.2.1) (ij2 * g.nz + t.2.1) t.2.2) X

/-- `maxwell_parity_constraint`, maxwell_constraints.c:31-42. -/
noncomputable def parityConstraint (g : Grid) (parity : BitVec 32) (p : ℕ) (X : ℕ → ℂ) : ℕ → ℂ :=
  let X := if has parity (evenZ ||| oddZ) then zparityConstraint g parity p X else X
  if has parity (evenY ||| oddY) then yparityConstraint g parity p X else X

/-! ### Parity expectation values -/

/-- The real product `Re(a)Re(b) + Im(a)Im(b)` of the accumulations. -/
def reDot (a b : ℂ) : ℝ := a.re * b.re + a.im * b.im

/-- `maxwell_zparity`, maxwell_constraints.c:132-190 (one process): the value returned for band `b`.  The accumulators are
summed over the loop over `i` and `j`. -/
noncomputable def zparity (g : Grid) (p : ℕ) (X : ℕ → ℂ) (b : ℕ) : ℝ :=
  let nxy := if g.nz > 1 then g.otherDims else g.otherDims * g.lastDim
  let nz := if g.nz > 1 then g.lastDim else 1
  let acc := (loop2 nxy (nz / 2 + 1)).foldl (fun (st : ℝ × ℝ) t =>
    let ij := t.1 * nz + t.2
    let ij2 := t.1 * nz + mir nz t.2
    let u := X ((ij * 2) * p + b)
    let v := X ((ij * 2 + 1) * p + b)
    let u2 := X ((ij2 * 2) * p + b)
    let v2 := X ((ij2 * 2 + 1) * p + b)
    let w : ℝ := if ij = ij2 then 1 else 2
    (st.1 + w * (u.re * u2.re + u.im * u2.im - v.re * v2.re - v.im * v2.im),
     st.2 + w * (u.re * u.re + u.im * u.im + v.re * v.re + v.im * v.im))) (0, 0)
  acc.1 / acc.2

/-- `maxwell_yparity`, maxwell_constraints.c:254-312 (one process): the value returned for band `b`. -/
noncomputable def yparity (g : Grid) (p : ℕ) (X : ℕ → ℂ) (b : ℕ) : ℝ :=
  let acc := (loop3 g.nx (g.ny / 2 + 1) g.nz).foldl (fun (st : ℝ × ℝ) t =>
    let ijk := (t.1 * g.ny + t.2.1) * g.nz + t.2.2
    let ijk2 := (t.1 * g.ny + mir g.ny t.2.1) * g.nz + t.2.2
    let u := X ((ijk * 2) * p + b)
    let v := X ((ijk * 2 + 1) * p + b)
    let u2 := X ((ijk2 * 2) * p + b)
    let v2 := X ((ijk2 * 2 + 1) * p + b)
    let w : ℝ := if ijk = ijk2 then 1 else 2
    (st.1 + w * (v.re * v2.re + v.im * v2.im - u.re * u2.re - u.im * u2.im),
     st.2 + w * (v.re * v.re + v.im * v.im + u.re * u.re + u.im * u.im))) (0, 0)
  acc.1 / acc.2

/-! ### Bands at k = 0 -/

/-- `m_band`, maxwell_constraints.c:325-331, 345, 366-367. -/
def mBand (parity : BitVec 32) : ℕ := if has parity (oddZ ||| evenY) then 0 else 1
/-- `n_band`, maxwell_constraints.c:325, 332-333, 345, 368-369. -/
def nBand (parity : BitVec 32) : ℕ := if has parity (oddY ||| evenZ) then 0 else 1

/-- `maxwell_zero_k_num_const_bands`, maxwell_constraints.c:323-341. -/
def numConstBands (parity : BitVec 32) (p : ℕ) : ℕ :=
  let num := mBand parity + nBand parity
  if num > p then p else num

/-- `maxwell_zero_k_set_const_bands`, maxwell_constraints.c:343-379.  `n = X.n` rows, `nstart = X.Nstart`. -/
noncomputable def setConstBands (parity : BitVec 32) (n p nstart : ℕ) (X : ℕ → ℂ) : ℕ → ℂ :=
  if p < 1 then X
  else
    let num := numConstBands parity p
    let X := writes ((loop2 n num).map fun t => (t.1 * p + t.2, (0 : ℂ))) X
    if nstart > 0 then X
    else
      let m := mBand parity
      let nb := nBand parity
      let X := if m ≠ 0 then writes [(0, (1 : ℂ)), (p, 0)] X else X
      if nb ≠ 0 ∧ (m = 0 ∨ p ≥ 2) then writes [(m, (0 : ℂ)), (p + m, 1)] X else X

/-- `maxwell_zero_k_constraint`, maxwell_constraints.c:383-395. -/
noncomputable def zeroKConstraint (p nstart : ℕ) (X : ℕ → ℂ) : ℕ → ℂ :=
  if nstart > 0 then X
  else (List.range p).foldl (fun mem j => writes [(j, (0 : ℂ)), (p + j, 0)] mem) X

end Mpb.Parity

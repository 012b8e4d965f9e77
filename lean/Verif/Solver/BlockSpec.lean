import Verif.Solver.Block

/-!
# Specification of the block loop

A block of bands is a list of columns.  `solveAll` is the algorithm a reader expects: take the bands block by block, solve each block against the list of bands already
solved, append the result.
-/

namespace Mpb.Solver.Spec

open Mat

/-- A column: the coefficients of one band. -/
abbrev Col := ℕ → ℂ

/-- Band `j` of a matrix in memory. -/
def col (h : Heap) (X : EM) (j : ℕ) : Col := fun i => if i < X.n then rd h X.data (i * X.p + j) else 0

/-- The first `p` bands. -/
def colList (h : Heap) (X : EM) (p : ℕ) : List Col := (List.range p).map (col h X)

/-- Block-by-block solution.  `solve ib solved guess` returns the vectors and eigenvalues of the bands starting at `ib`, orthogonal to `solved`, from the initial guess. -/
def solveAll (solve : ℕ → List Col → List Col → List Col × List ℝ) (blk : ℕ) (hblk : 0 < blk) (ib : ℕ) (solved : List Col) (vals : List ℝ) (rest : List Col) :
    List Col × List ℝ :=
  if hr : rest = [] then (solved, vals)
  else
    let r := solve ib solved (rest.take blk)
    solveAll solve blk hblk (ib + blk) (solved ++ r.1) (vals ++ r.2) (rest.drop blk)
termination_by rest.length
decreasing_by
  have := List.length_pos_iff.2 hr
  simp
  omega

/-- What is assumed of the functions called by `solve_kpoint`: the eigensolver computes `solve` on the columns it is given (deflating against the columns of `Y`, provided `BY` holds
the weighted columns), returns as many bands as it is given, and only writes its block and scratch arrays; the permeability operator computes `B` column by column; the
constant bands are written to the first `ib0` columns. -/
structure EnvOK (env : Env) (H Hblock BY : EM) (B : Col → Col) (solve : ℕ → List Col → List Col → List Col × List ℝ) (constCol : ℕ → Col) (ib0 : ℕ) : Prop where
  len : ∀ ib s g, (solve ib s g).1.length = g.length ∧ (solve ib s g).2.length = g.length
  solver0 : ∀ ib q h, q ≤ Hblock.allocP →
    let Hb := { Hblock with p := q }
    let o := env.solver ib Hb none h
    colList o.1 Hb q = (solve ib [] (colList h Hb q)).1 ∧ (List.range q).map o.2 = (solve ib [] (colList h Hb q)).2
  solverD : ∀ ib q p (Y BY' : EM) h, q ≤ Hblock.allocP → (∀ j < p, col h BY' j = B (col h Y j)) →
    let Hb := { Hblock with p := q }
    let o := env.solver ib Hb (some (Y, BY', p)) h
    colList o.1 Hb q = (solve ib (colList h Y p) (colList h Hb q)).1 ∧ (List.range q).map o.2 = (solve ib (colList h Y p) (colList h Hb q)).2
  frame : ∀ ib q d h a, H.data.arr ≠ Hblock.data.arr → (env.solver ib { Hblock with p := q } d h).1 H.data.arr a = h H.data.arr a
  muinv : BY.data ≠ H.data → ∀ q p h, p ≤ q → ∀ j < p,
    col (env.muinv { H with p := q } { BY with p := p } h) { BY with p := p } j = B (col h { H with p := q } j)
  muinvFrame : ∀ q p h k a, k ≠ BY.data.arr → env.muinv { H with p := q } { BY with p := p } h k a = h k a
  noMu : BY.data = H.data → ∀ c, B c = c
  const : ∀ h j, j < H.p → col (env.setConst H h) H j = if j < ib0 then constCol j else col h H j

end Mpb.Solver.Spec

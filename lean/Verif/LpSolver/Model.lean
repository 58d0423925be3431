import Verif.Common.Unique
import Mathlib.Algebra.Order.Field.Basic
/-
Model of `solveLP_sparse` (inflation/lp/lp_utils.py) and of the helpers it uses: how a linear program given by sparse matrices
is turned into the data passed to MOSEK (`task.inputdata`), and how the certificate is read off the multipliers.
A `coo_array` is its shape and its list of (row, column, value) entries (duplicates add up). Floats are elements of an ordered
field. `none` is a raised exception. Solver parameters, printing, timing and garbage collection are not modelled; MOSEK itself is
not modelled: the theorems quantify over every answer allowed by its specification (see `Spec`).
-/
namespace Verif.LpSolver
open Verif.Common

/-- `scipy.sparse.coo_array`. -/
structure Coo (K : Type) where
  rows : Nat
  cols : Nat
  ents : List (Nat × Nat × K)
deriving DecidableEq

/-- `mosek.boundkey`. -/
inductive BoundKey
  | lo | up | fx | fr | ra
deriving DecidableEq

/-- The data given to `task.inputdata` and `task.putobjsense`; `ents` are the (constraint, variable, value) entries. -/
structure Task (K : Type) where
  maximise : Bool
  numcon : Nat
  numvar : Nat
  obj : List K
  ents : List (Nat × Nat × K)
  bkc : List BoundKey
  blc : List K
  buc : List K
  bkx : List BoundKey
  blx : List K
  bux : List K
deriving DecidableEq

/-- The matrices given to `solveLP_sparse`, lp_utils.py 120-128; `objective`, `known`, `lower`, `upper` have one row. -/
structure Args (K : Type) where
  objective : Coo K
  known : Coo K
  ineq : Coo K
  eq : Coo K
  lower : Coo K
  upper : Coo K

/-- The options, lp_utils.py 129-133. -/
structure Flags where
  dual : Bool
  nonneg : Bool
  relaxKnown : Bool
  relaxIneq : Bool

variable {K : Type}

/-- `drop_zero_rows`, lp_utils.py 18-31. `reshape` raises (`none`) when the total size changes. -/
def dropZeroRows (A : Coo K) : Option (Coo K) :=
  let nz := npUnique (A.ents.map fun e => e.1)
  if nz.length * A.cols = A.rows * A.cols then
    some ⟨nz.length, A.cols, A.ents.map fun e => (nz.idxOf e.1, e.2.1, e.2.2)⟩
  else none

/-- Order of `np.lexsort([col, row])`, lp_utils.py 44. -/
def entLe (a b : Nat × Nat × K) : Bool := decide (a.1 < b.1) || (decide (a.1 = b.1) && decide (a.2.1 ≤ b.2.1))

/-- `canonical_order`, lp_utils.py 34-48. -/
def canonicalOrder (A : Coo K) : Coo K := { A with ents := sortBy entLe A.ents }

/-- `vstack` for blocks in `coo_array` form, utils.py 149-171. `none` is `sps.coo_array([])`, which has one dimension, so that
unpacking its shape raises. -/
def vstack (blocks : List (Coo K)) : Option (Coo K) :=
  match blocks.filter fun b => b.rows != 0 with
  | [] => none
  | [b] => some b
  | _ => some (blocks.foldl (fun acc b =>
      ⟨acc.rows + b.rows, max acc.cols b.cols, acc.ents ++ b.ents.map fun e => (e.1 + acc.rows, e.2.1, e.2.2)⟩) ⟨0, 0, []⟩)

/-- The entries of `expand_sparse_vec(v, "eq")`, utils.py 119-124. -/
def unitEnts [One K] (cols : List Nat) : List (Nat × Nat × K) := cols.mapIdx fun i c => (i, c, 1)

/-- `expand_sparse_vec(v, "eq")`, utils.py 113-141. -/
def expandEq [One K] (v : Coo K) : Coo K := ⟨v.ents.length, v.cols, unitEnts (v.ents.map fun e => e.2.1)⟩

/-- `expand_sparse_vec(v, "ub")` (`sign = 1`) and `"lb"` (`sign = -1`), utils.py 125-146: rows `sign * (value - variable)`, the
value in column 0. -/
def expandBound [Ring K] (sign : K) (v : Coo K) : Coo K :=
  ⟨v.ents.length, v.cols, (v.ents.mapIdx fun i e => [(i, e.2.1, sign * (-1)), (i, 0, sign * e.2.2)]).flatten⟩

/-- `v.toarray().ravel()` for a matrix of one row. -/
def dense [Add K] [Zero K] (v : Coo K) : List K :=
  (List.range v.cols).map fun j => ((v.ents.filter fun e => e.2.1 == j).map fun e => e.2.2).sum

/-- Slack column of `relax_inequalities`, lp_utils.py 235-246. -/
def addSlack [One K] (nIneq : Nat) (A : Coo K) : Coo K :=
  ⟨A.rows, A.cols + 1, A.ents ++ (List.range nIneq).map fun i => (i, A.cols, 1)⟩

/-- `kv_matrix` of `relax_known_vars`, lp_utils.py 248-265: rows `x + λ` then rows `x - λ`. -/
def relaxedKnown [Ring K] (n : Nat) (cols : List Nat) : Coo K :=
  let nk := cols.length
  let row := List.range (nk * 2) ++ List.range (nk * 2)
  let col := (cols ++ cols) ++ List.replicate (nk * 2) n
  let data := List.replicate (nk * 3) (1 : K) ++ List.replicate nk (-1)
  ⟨nk * 2, n + 1, List.zip row (List.zip col data)⟩

/-- What is computed before the branch on `solve_dual`, lp_utils.py 189-282. -/
structure Prep (K : Type) where
  con : Coo K
  b : List K
  nIneq : Nat
  nEq : Nat
  nKnown : Nat
  knownCols : List Nat
  objective : Coo K
  lower : Coo K
  upper : Coo K
deriving DecidableEq

/-- The part of `prepare` which adds the known values, lp_utils.py 248-276. `base` is the matrix of the inequalities and
equalities, `A` the same with the slack column if `relax_inequalities`. -/
def addKnown [Ring K] (relaxKnown : Bool) (base A : Coo K) (known : Coo K) : Option (Coo K) :=
  if relaxKnown then
    vstack [⟨base.rows, base.cols + 1, A.ents⟩, canonicalOrder (relaxedKnown base.cols (known.ents.map fun e => e.2.1))]
  else vstack [A, expandEq known]

/-- lp_utils.py 189-282. -/
def prepare [Ring K] (f : Flags) (a : Args K) : Option (Prep K) := do
  let ineq ← dropZeroRows a.ineq
  let eq ← dropZeroRows a.eq
  let known := canonicalOrder a.known
  let base ← vstack [ineq, eq]
  let A := if f.relaxIneq then addSlack ineq.rows base else base
  let con ← addKnown f.relaxKnown base A known
  let data := known.ents.map fun e => e.2.2
  let nk := known.ents.length
  pure {
    con := con
    b := List.replicate base.rows 0 ++ (if f.relaxKnown then data ++ data else data)
    nIneq := ineq.rows
    nEq := if f.relaxKnown then eq.rows else eq.rows + nk
    nKnown := nk
    knownCols := known.ents.map fun e => e.2.1
    objective := if a.objective.cols = 0 then ⟨1, con.cols, []⟩ else canonicalOrder a.objective
    lower := canonicalOrder a.lower
    upper := canonicalOrder a.upper }

/-- `relax_known_vars or relax_inequalities`. -/
def Flags.relaxed (f : Flags) : Bool := f.relaxKnown || f.relaxIneq

/-- `default_non_negative` after lines 202-203. -/
def Flags.effNonneg (f : Flags) : Bool := if f.relaxed then false else f.nonneg

/-- The vector whose last entry is -1: lp_utils.py 322-324, 356-362. -/
def slackVec [Ring K] (n : Nat) : List K := (List.replicate n 0).set (n - 1) (-1)

/-- `arr[cols] = values` on a vector of zeros: the last value written wins. -/
def scatter [Zero K] (n : Nat) (v : Coo K) : List K :=
  v.ents.foldl (fun acc e => acc.set e.2.1 e.2.2) (List.replicate n 0)

/-- Bound keys of the variables in the primal, lp_utils.py 388-404. -/
def primalKey (f : Flags) (n : Nat) (lbCols ubCols : List Nat) (j : Nat) : BoundKey :=
  if f.relaxed && j == n - 1 then .fr
  else if f.effNonneg then (if j ∈ ubCols then .ra else .lo)
  else if j ∈ lbCols then (if j ∈ ubCols then .ra else .lo)
  else if j ∈ ubCols then .up else .fr

/-- The primal task, lp_utils.py 349-412. `matrix.indptr`/`indices` of the CSC form give the columns, i.e. the entries. -/
def primalTask [Ring K] (f : Flags) (p : Prep K) : Task K :=
  { maximise := true
    numcon := p.con.rows
    numvar := p.con.cols
    obj := if f.relaxed then slackVec p.con.cols else dense p.objective
    ents := p.con.ents
    bkc := List.replicate p.nIneq .lo ++ List.replicate p.nEq .fx ++
      (if f.relaxKnown then List.replicate p.nKnown .lo ++ List.replicate p.nKnown .up else [])
    blc := p.b
    buc := p.b
    bkx := (List.range p.con.cols).map
      (primalKey f p.con.cols (p.lower.ents.map fun e => e.2.1) (p.upper.ents.map fun e => e.2.1))
    blx := scatter p.con.cols p.lower
    bux := scatter p.con.cols p.upper }

/-- `ub_mat` after its data are negated, lp_utils.py 303-305. -/
def negEnts [Neg K] (A : Coo K) : Coo K := { A with ents := A.ents.map fun e => (e.1, e.2.1, -e.2.2) }

/-- The matrix of the dual: the bounds are added as rows, lp_utils.py 298-313. -/
def dualMatrix [Ring K] (p : Prep K) : Option (Coo K) :=
  if p.lower.ents.length + p.upper.ents.length > 0 then vstack [p.con, expandEq p.lower, negEnts (expandEq p.upper)] else some p.con

/-- The dual task, lp_utils.py 290-347. The CSR form of `matrix` is passed as columns: entries are transposed. -/
def dualTask [Ring K] (f : Flags) (p : Prep K) : Option (Task K) := do
  let nb := p.lower.ents.length + p.upper.ents.length
  let matrix ← dualMatrix p
  let rhs := if f.relaxed then slackVec p.con.cols else dense p.objective
  pure {
    maximise := false
    numcon := p.con.cols
    numvar := p.con.rows + nb
    obj := p.b ++ (p.lower.ents.map fun e => e.2.2) ++ (p.upper.ents.map fun e => -e.2.2)
    ents := matrix.ents.map fun e => (e.2.1, e.1, e.2.2)
    bkc := List.replicate p.con.cols (if f.effNonneg then .lo else .fx)
    blc := rhs
    buc := rhs
    bkx := List.replicate p.nIneq .up ++ List.replicate p.nEq .fr ++
      (if f.relaxKnown then List.replicate p.nKnown .up ++ List.replicate p.nKnown .lo else []) ++ List.replicate nb .up
    blx := List.replicate (p.con.rows + nb) 0
    bux := List.replicate (p.con.rows + nb) 0 }

/-- `solveLP_sparse` up to the call of the optimiser. -/
def buildTask [Ring K] (f : Flags) (a : Args K) : Option (Task K) := do
  let p ← prepare f a
  if f.dual then dualTask f p else some (primalTask f p)

/-- `cert_data`, lp_utils.py 478-495, for multipliers `y`. -/
def certData [Ring K] (f : Flags) (p : Prep K) (y : List K) : List K :=
  let ys := y.drop (p.con.rows - (if f.relaxKnown then p.nKnown * 2 else p.nKnown))
  let obj := dense p.objective
  let unk := (p.objective.ents.map fun e => e.2.1).filter fun c => !(p.knownCols.contains c)
  let c0 := unk.foldl (fun acc c => acc.set c (-(obj.getD c 0))) (List.replicate p.con.cols 0)
  let c1 := (p.knownCols.zip (ys.take p.nKnown)).foldl (fun acc t => acc.set t.1 t.2) c0
  if f.relaxKnown then
    (p.knownCols.zip ((ys.drop p.nKnown).take p.nKnown)).foldl (fun acc t => acc.set t.1 (c1.getD t.1 0 + t.2)) c1
  else c1

/-- `np.isclose(v, 0)`: `|v| <= 1e-8`. -/
def isClose0 [Field K] [LinearOrder K] (v : K) : Bool := decide (|v| ≤ 1 / 100000000)

/-- `dual_certificate`, lp_utils.py 497-505: (column, coefficient) pairs. `dict(zip(variables, ...))` stops at the shorter list, so
the slack column is left out; `nVars` is `len(variables)`. -/
def certificate [Field K] [LinearOrder K] (f : Flags) (p : Prep K) (nVars : Nat) (y : List K) : List (Nat × K) :=
  (((certData f p y).take nVars).mapIdx fun j v => (j, v)).filter fun t => !(isClose0 t.2)

end Verif.LpSolver

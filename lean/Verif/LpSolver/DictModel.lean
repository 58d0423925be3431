import Verif.LpSolver.Model
/-
Model of `solveLP` (inflation/lp/lp_utils.py 50-127), which converts dictionaries to sparse matrices, `to_sparse` (570-605) and
`convert_dicts` (608-660). A dictionary is its list of (key, value) pairs. `none` is a raised exception. `le` is the order Python
uses to sort the names.
-/
namespace Verif.LpSolver
open Verif.Common

variable {α K : Type} [DecidableEq α]

/-- A vector argument: not given, a dictionary or a sparse matrix. -/
inductive VecArg (α K : Type)
  | absent
  | dict (d : List (α × K))
  | sparse (c : Coo K)

/-- A list of constraints: not given, dictionaries or a sparse matrix. -/
inductive MatArg (α K : Type)
  | absent
  | dicts (l : List (List (α × K)))
  | sparse (c : Coo K)

/-- The arguments of `solveLP`, lp_utils.py 50-57 (the bounds are among `kwargs`). `semiknown` lists `x ↦ (c, x2)`. -/
structure Call (α K : Type) where
  objective : VecArg α K
  known : VecArg α K
  lower : VecArg α K
  upper : VecArg α K
  ineq : MatArg α K
  eq : MatArg α K
  semiknown : Option (List (α × K × α))
  vars : Option (List α)

/-- `{x: i for i, x in enumerate(variables)}[x]`, lp_utils.py 588, 642: the last position wins; `none` is a `KeyError`. -/
def varIdx (vars : List α) (x : α) : Option Nat := (vars.reverse.idxOf? x).map fun i => vars.length - 1 - i

/-- The (column, value) pairs of a dictionary. -/
def dictCols (vars : List α) (d : List (α × K)) : Option (List (Nat × K)) := d.mapM fun e => (varIdx vars e.1).map fun i => (i, e.2)

/-- Rows stacked in one matrix of `n` columns. -/
def rowsMat (n : Nat) (rows : List (List (Nat × K))) : Coo K :=
  ⟨rows.length, n, (rows.mapIdx fun i row => row.map fun t => (i, t.1, t.2)).flatten⟩

/-- `to_sparse` of a dictionary, lp_utils.py 587-593. -/
def toSparseVec (vars : List α) (d : List (α × K)) : Option (Coo K) :=
  (dictCols vars d).map fun cols => ⟨1, vars.length, cols.map fun t => (0, t.1, t.2)⟩

/-- `to_sparse` of a list of dictionaries, lp_utils.py 594-605. -/
def toSparseMat (vars : List α) (l : List (List (α × K))) : Option (Coo K) :=
  (l.mapM (dictCols vars)).map fun rows => rowsMat vars.length rows

/-- `semiknown_mat`, lp_utils.py 639-652. -/
def semiknownMat [Ring K] (vars : List α) (sk : List (α × K × α)) : Option (Coo K) :=
  (sk.mapM fun s => (varIdx vars s.1).bind fun i => (varIdx vars s.2.2).map fun j => [(i, (1 : K)), (j, -s.2.1)]).map
    fun rows => rowsMat vars.length rows

/-- A vector after `convert_dicts`. `dflt` is what is used when the argument is not given: an exception for the named
arguments of `solveLP`, whose default `None` is passed on, and `blank_coo_array` for the bounds. -/
def convVec (vars : List α) (dflt : Option (Coo K)) : VecArg α K → Option (Coo K)
  | .absent => dflt
  | .dict d => toSparseVec vars d
  | .sparse c => some c

/-- A matrix of inequalities after `convert_dicts`. -/
def convMat (vars : List α) : MatArg α K → Option (Coo K)
  | .absent => none
  | .dicts l => toSparseMat vars l
  | .sparse c => some c

/-- The equalities after `convert_dicts`, lp_utils.py 605-654. Only equalities that were converted are kept beside the semi-known
ones. -/
def convEq [Ring K] (vars : List α) (eq : MatArg α K) (sk : List (α × K × α)) : Option (Coo K) :=
  if sk.isEmpty then convMat vars eq
  else match eq with
    | .dicts l => (toSparseMat vars l).bind fun A => (semiknownMat vars sk).bind fun B => vstack [A, B]
    | _ => semiknownMat vars sk

/-- `convert_dicts`, and the arguments received by `solveLP_sparse`. -/
def convert [Ring K] (vars : List α) (c : Call α K) : Option (Args K) := do
  let objective ← convVec vars none c.objective
  let known ← convVec vars none c.known
  let ineq ← convMat vars c.ineq
  let eq ← convEq vars c.eq (c.semiknown.getD [])
  let lower ← convVec vars (some ⟨0, 0, []⟩) c.lower
  let upper ← convVec vars (some ⟨0, 0, []⟩) c.upper
  pure ⟨objective, known, ineq, eq, lower, upper⟩

def VecArg.isDict : VecArg α K → Bool
  | .dict _ => true | _ => false
def VecArg.isSparse : VecArg α K → Bool
  | .sparse _ => true | _ => false
def MatArg.isDict : MatArg α K → Bool
  | .dicts _ => true | _ => false
def MatArg.isSparse : MatArg α K → Bool
  | .sparse _ => true | _ => false
def VecArg.keys : VecArg α K → List α
  | .dict d => d.map fun e => e.1 | _ => []
def MatArg.keys : MatArg α K → List α
  | .dicts l => (l.map fun d => d.map fun e => e.1).flatten | _ => []

/-- `all(issparse(arg) for arg in used_args.values())`, lp_utils.py 98. -/
def Call.allSparse (c : Call α K) : Bool :=
  [c.objective, c.known, c.lower, c.upper].all (fun v => !v.isDict) && [c.ineq, c.eq].all (fun m => !m.isDict) && c.semiknown.isNone

/-- `all(isinstance(arg, (dict, list)) for arg in used_args.values())`, lp_utils.py 101. -/
def Call.allDicts (c : Call α K) : Bool :=
  [c.objective, c.known, c.lower, c.upper].all (fun v => !v.isSparse) && [c.ineq, c.eq].all (fun m => !m.isSparse)

/-- The names in the objective, the constraints, the semi-known and the known values, lp_utils.py 104-119: not those that only
have bounds. -/
def Call.names (c : Call α K) : List α :=
  c.objective.keys ++ c.ineq.keys ++ c.eq.keys ++ ((c.semiknown.getD []).map fun s => [s.1, s.2.2]).flatten ++ c.known.keys

/-- The variables inferred, lp_utils.py 104-119. -/
def Call.inferred (le : α → α → Bool) (c : Call α K) : List α := sortBy le (dedupB c.names)

/-- `solveLP` up to the call of `solveLP_sparse`, lp_utils.py 84-127: the variables and the matrices. -/
def solveLP [Ring K] (le : α → α → Bool) (c : Call α K) : Option (List α × Args K) :=
  match c.vars with
  | some vars => (convert vars c).map fun a => (vars, a)
  | none =>
    if c.allSparse then none
    else if c.allDicts then (convert (c.inferred le) c).map fun a => (c.inferred le, a)
    else none

end Verif.LpSolver

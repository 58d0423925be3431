import Verif.Scenario.Commute
/-
Model of the discovery of inflation symmetries: `discover_lexorder_symmetries` (InflationProblem.py
860-919), `format_permutations` and `perm_combiner` (utils.py), `apply_source_perm` (fast_npa.py), and of the
padding the SDP applies (InflationSDP.py 153-154).
-/
namespace Verif.Symmetry
open Verif.Scenario

/-- `itertools.permutations` with fuel: for each element in order, that element followed by all
permutations of the remaining ones. (`erase` removes by value; the code only uses it on the distinct
entries of `range(n)`, where this is the same as removing by position.) -/
def permsAux : Nat → List Nat → List (List Nat)
  | 0, _ => [[]]
  | n + 1, l => l.flatMap fun x => (permsAux n (l.erase x)).map (x :: ·)

/-- `list(permutations(range(n)))`, InflationProblem.py 885-886. -/
def permutations (n : Nat) : List (List Nat) := permsAux n (List.range n)

/-- One row of `format_permutations`, utils.py 31-55: shift by one and prepend 0. -/
def formatPermutation (p : List Nat) : List Nat := 0 :: p.map (· + 1)

/-- `apply_source_perm` on one operator row, fast_npa.py 432-457: the copy label of `source` is replaced by
its image under the formatted permutation (index out of range gives 0 here; it is never
reached, see `lookup_applySourcePerm`). -/
def applySourcePerm (source : Nat) (perm : List Nat) (op : Op) : Op :=
  { op with copies := op.copies.set source (perm.getD (op.copies.getD source 0) 0) }

/-- The rows collected for one source, InflationProblem.py 883-901: the identity, then for all permutations but the
first the ranks of the permuted operators; a `KeyError` skips the permutation. -/
def oneSource (S : Scenario) (source : Nat) : List (List Nat) :=
  List.range S.lexorder.length ::
    ((permutations (S.level source)).drop 1).filterMap fun p =>
      (S.lexorder.map (applySourcePerm source (formatPermutation p))).mapM S.lookup

/-- `perm_combiner`, utils.py 171-174: `combined[i, j, :] = old[i][new[j]]`, flattened. -/
def permCombiner (old new : List (List Nat)) : List (List Nat) :=
  old.flatMap fun o => new.map fun p => p.map fun k => o.getD k 0

/-- `discover_lexorder_symmetries`, InflationProblem.py 860-907 (`functools.reduce` is a left fold starting at
the first element). -/
def lexorderSymmetries (S : Scenario) : List (List Nat) :=
  match (List.range S.nSources).filter fun s => decide (1 < S.level s) with
  | [] => [List.range S.lexorder.length]
  | s :: ss => (ss.map (oneSource S)).foldl permCombiner (oneSource S s)

/-- One row of `np.pad(lexorder_symmetries + 1, ((0,0),(1,0)))`, InflationSDP.py 153-154. -/
def padRow (r : List Nat) : List Nat := 0 :: r.map (· + 1)

/-- `lexorder_symmetries` of InflationSDP. -/
def sdpSymmetries (S : Scenario) : List (List Nat) := (lexorderSymmetries S).map padRow

end Verif.Symmetry

import Verif.Common.Sort
import Verif.MomentMatrix.Model
import Verif.SymMM.Model
/-
Model of `_discover_columns_symmetries`, InflationSDP.py 1862-1895, and of the pipeline of `generate_relaxation` which applies it to
the moment matrix, InflationSDP.py 311-333.
-/
namespace Verif.SymMM
open Verif.Common Verif.Canon Verif.MomentMatrix

/-- The permutation of the columns induced by one symmetry row, InflationSDP.py 1877-1886; `none` for the `KeyError`. The cache of
`_to_canonical_memoized_1d` is not modelled here (see C34). -/
def columnPerm (nc om : BMat) (commuting : Bool) (cols : List (List Nat)) (r : List Nat) : Option (List Nat) :=
  cols.mapM fun m => cols.idxOf? (toCanonical nc om commuting true (m.map fun x => r.getD x x))

/-- `_discover_columns_symmetries`, InflationSDP.py 1862-1895; `np.unique(..., axis=0)` sorts the rows and removes
repetitions. -/
def columnsSymmetries (nc om : BMat) (commuting : Bool) (cols : List (List Nat)) (rows : List (List Nat)) : List (List Nat) :=
  (sortBy lexLe (dedupB (List.range cols.length :: (rows.drop 1).filterMap (columnPerm nc om commuting cols)))).drop 1

/-- `momentmatrix.ravel()`. -/
def ravel (n : Nat) (mat : Nat → Nat → Nat) : List Nat := (List.range (n * n)).map fun x => mat (x / n) (x % n)

/-- The symmetrized moment matrix of a relaxation, InflationSDP.py 311-333. -/
def relaxationMatrix (nc om : BMat) (commuting : Bool) (cols : List (List Nat)) (rows : List (List Nat)) :
    Option (List Nat × List (Nat × Nat) × List Nat) :=
  applySymmetries cols.length (ravel cols.length (momentMatrix nc om commuting cols).mat)
    (columnsSymmetries nc om commuting cols rows)

end Verif.SymMM

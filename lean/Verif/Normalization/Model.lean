import Verif.Scenario.Model
import Verif.Common.Sort
import Verif.State.Dict
/-
Model of the normalisation equalities of the SDP: `_discover_normalization_eqns` (sdp/InflationSDP.py 1808-1860), `construct_normalization_eqs` and `expand_moment_normalisation` (sdp/quantum_tools.py 274-367) and their translation to moment equalities (sdp/InflationSDP.py 388-404).

Operators are ranks in `self._lexorder`, rank 0 being the zero operator; a moment index is a natural number, 0 for the zero moment.
-/
namespace Verif.Normalization

open Verif.Scenario Verif.State Verif.Common

/-- `last_outcome_boolmask`, InflationSDP.py 1826-1830. `card` is `self.outcome_cardinalities`, which has been increased by one for every party with children (InflationSDP.py 91-100); the operators are those of `self._lexorder[1:]`. -/
def lastOutcomeMask (ops : List Op) (hasChildren : Nat → Bool) (card : Nat → Nat) : List Bool :=
  false :: ops.map fun op => hasChildren (op.party - 1) && decide (op.outcome + 2 = card (op.party - 1))

/-- `lexmon_to_orthogroup`, InflationSDP.py 1834-1840: the group of every measurement under the rank of its last outcome. Empty groups (`IndexError`) do not occur. -/
def orthoDict (groups : List (List Nat)) : Dict Nat (List Nat) :=
  groups.foldl (fun d g => match g.getLast? with
    | some x => d.set x g
    | none => d) []

/-- The groups of ranks of one problem, InflationSDP.py 1835-1840 (`self.mon_to_lexrepr` of every operator of every group; `self._lexorder` has the zero operator in front). -/
def scenarioGroups (S : Scenario) : List (List Nat) := S.orthoGroups.map fun g => g.map fun op => S.lexorder.idxOf op + 1

/-- `self.genmon_1d_to_index`, InflationSDP.py 1252-1253 (`{tuple(lexmon): i for i, lexmon in enumerate(...)}`): the last position of a repeated column wins. -/
def columnIndexAux : Nat → Dict (List Nat) Nat → List (List Nat) → Dict (List Nat) Nat
  | _, d, [] => d
  | i, d, m :: ms => columnIndexAux (i + 1) (d.set m i) ms

def columnIndex (cols : List (List Nat)) : Dict (List Nat) Nat := columnIndexAux 0 [] cols

/-- The equalities proposed for one column: for every position holding a last outcome, the column without that operator and the columns with that operator replaced by each outcome; InflationSDP.py 1844-1851. `none` is the `KeyError` of `lexmon_to_orthogroup[op]`. -/
def proposals (mask : List Bool) (ortho : Dict Nat (List Nat)) (lexmon : List Nat) : Option (List (List Nat × List (List Nat))) :=
  ((List.range lexmon.length).filter fun i => mask.getD (lexmon.getD i 0) false).mapM fun i =>
    (Dict.get ortho (lexmon.getD i 0)).map fun g => (lexmon.eraseIdx i, g.map fun x => lexmon.set i x)

/-- Look all columns of a proposal up; `none` is the `KeyError`, InflationSDP.py 1854-1856. -/
def lookupEq (index : Dict (List Nat) Nat) (eq : List Nat × List (List Nat)) : Option (Nat × List Nat) :=
  (Dict.get index eq.1).bind fun n => (eq.2.mapM fun m => Dict.get index m).map fun s => (n, s)

/-- The loop over the proposals of one column, which stops at the first one with a missing column: `except KeyError: break`, InflationSDP.py 1852-1859. -/
def acceptProposals (index : Dict (List Nat) Nat) : List (List Nat × List (List Nat)) → List (Nat × List Nat)
  | [] => []
  | eq :: eqs => match lookupEq index eq with
    | some e => e :: acceptProposals index eqs
    | none => []

/-- `_discover_normalization_eqns`, InflationSDP.py 1808-1860. -/
def discover (mask : List Bool) (ortho : Dict Nat (List Nat)) (cols : List (List Nat)) : Option (List (Nat × List Nat)) :=
  (cols.mapM fun m => (proposals mask ortho m).map (acceptProposals (columnIndex cols))).map List.flatten

/-- One round of the inner loop of `construct_normalization_eqs`, quantum_tools.py 309-321: state is the equalities so far and the sorted index tuples seen. -/
def constructStep (eq : Nat × List Nat) (st : List (Nat × List Nat) × List (List Nat)) (row : List Nat) :
    List (Nat × List Nat) × List (List Nat) :=
  let norm := row.getD eq.1 0
  let sums := eq.2.map fun j => row.getD j 0
  if sums.all (fun x => x != 0) then
    let sorted := sortBy (fun a b => decide (a ≤ b)) sums
    if sorted ∈ st.2 then st else (st.1 ++ [(norm, sorted)], st.2 ++ [sorted])
  else st

/-- `construct_normalization_eqs`, quantum_tools.py 274-323. -/
def construct (colEqs : List (Nat × List Nat)) (mm : List (List Nat)) : List (Nat × List Nat) :=
  (colEqs.foldl (fun st eq => mm.foldl (constructStep eq) st) ([], [])).1

/-- The moment equality of one index equality, InflationSDP.py 398-404: `{norm: 1}` updated with `-1` for every summand. Moments are identified with their indices (the assertion at InflationSDP.py 357-358 makes the correspondence injective). `none`: `itemgetter` with a single key returns the moment itself, over which `zip` cannot iterate (`TypeError`). -/
def momentEquality (eq : Nat × List Nat) : Option (Dict Nat Int) :=
  if eq.2.length < 2 then none
  else some (eq.2.foldl (fun d i => d.set i (-1)) [(eq.1, 1)])

/-- `expand_moment_normalisation`, quantum_tools.py 326-367, on a moment given by its operators. The guard `len(moments) == true_cardinality` always holds, see `expand_guard`. -/
def expandMoment (card : Nat → Nat) (skip : Nat → Bool) (moment : List Op) : List (List Op × List (List Op)) :=
  (List.range moment.length).filterMap fun k =>
    match moment[k]? with
    | none => none
    | some op =>
      if !skip (op.party - 1) && decide (op.outcome + 2 = card (op.party - 1)) then
        let moments := moment :: (List.range (card (op.party - 1) - 1 - 1)).map fun o => moment.take k ++ { op with outcome := o } :: moment.drop (k + 1)
        if moments.length = card (op.party - 1) - 1 then some (moment.take k ++ moment.drop (k + 1), moments) else none
      else none

end Verif.Normalization

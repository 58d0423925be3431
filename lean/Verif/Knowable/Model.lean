import Verif.Scenario.Model
import Verif.Common.Unique
/-
Model of the knowability tests: `nb_is_knowable` (fast_npa.py), `nb_is_do_conditional` (lp/numbafied.py),
`_is_knowable_q_non_networks`, `rectify_fake_setting` (InflationProblem.py), `_atomic_knowable_q` (InflationLP.py, InflationSDP.py).
A row of the 2d array is an `Op`; a column of the copy labels is read with default 0 (rows have equal length in numpy).
-/
namespace Verif.Knowable
open Verif.Scenario Verif.Common

/-- `for source in monomial.T[1:-2]: if len(np.unique(source[np.flatnonzero(source)])) > 1: return False`,
fast_npa.py 163-165 and lp/numbafied.py 87-89. -/
def oneCopyPerSource (nSources : Nat) (mon : List Op) : Bool :=
  (List.range nSources).all fun s =>
    !decide ((npUnique ((mon.map fun op => op.copies.getD s 0).filter (· != 0))).length > 1)

/-- `nb_is_knowable`, fast_npa.py 138-163. -/
def isKnowable (nSources : Nat) (mon : List Op) : Bool :=
  if mon.length ≤ 1 then true
  else if (npUnique (mon.map (·.party))).length != mon.length then false
  else oneCopyPerSource nSources mon

/-- `nb_is_do_conditional`, lp/numbafied.py 69-90. -/
def isDoConditional (nSources : Nat) (mon : List Op) : Bool :=
  if mon.length ≤ 1 then true else oneCopyPerSource nSources mon

/-- `outcomes_by_party = {(o[0] - 1): o[-1] for o in monomial}`, InflationProblem.py 701 (a later row overwrites an earlier one);
reading a missing key (`KeyError`) is not reachable and gives 0 here. -/
def outcomeOf (rows : List (Nat × Nat × Nat)) (q : Nat) : Nat :=
  ((rows.reverse.map fun r => (r.1 - 1, r.2.2)).lookup q).getD 0

/-- The loop of `_is_knowable_q_non_networks`, InflationProblem.py 702-712; `none` is a `KeyError`.
`dims p` is `settings_per_party_lst[p]`: the number of private settings followed by the outcome numbers of the parents. -/
def settingsMatch (parents : Nat → List Nat) (dims : Nat → List Nat) (rows : List (Nat × Nat × Nat)) :
    List (Nat × Nat × Nat) → Option Bool
  | [] => some true
  | r :: t =>
    match decodeSetting (dims (r.1 - 1)) r.2.1 with
    | none => none
    | some l =>
      if (parents (r.1 - 1)).map (outcomeOf rows) == l.tail then settingsMatch parents dims rows t
      else some false

/-- `_is_knowable_q_non_networks`, InflationProblem.py 675-715. Rows are `(party, effective setting, outcome)`. -/
def knowableNonNetwork (parents : Nat → List Nat) (dims : Nat → List Nat) (rows : List (Nat × Nat × Nat)) : Option Bool :=
  let present := rows.map fun r => r.1 - 1
  if present.any fun p => (parents p).any fun q => !(present.contains q) then some false
  else settingsMatch parents dims rows rows

/-- `np.take(atomic_monarray, [0, -2, -1], axis=1)`, InflationLP.py 1982-1984. -/
def rowsOf (mon : List Op) : List (Nat × Nat × Nat) := mon.map fun op => (op.party, op.setting, op.outcome)

/-- `_atomic_knowable_q`, InflationLP.py 1977-1984, InflationSDP.py 2092-2099. -/
def atomicKnowable (nSources : Nat) (network : Bool) (parents : Nat → List Nat) (dims : Nat → List Nat) (mon : List Op) :
    Option Bool :=
  if !(isKnowable nSources mon) then some false
  else if network then some true
  else knowableNonNetwork parents dims (rowsOf mon)

/-- `rectify_fake_setting`, InflationProblem.py 717-753: the effective setting is replaced by its first component.
(The code overwrites its argument when it can; `np.take` in the callers makes a copy.) `none` is a `KeyError`. -/
def rectify (dims : Nat → List Nat) (rows : List (Nat × Nat × Nat)) : Option (List (Nat × Nat × Nat)) :=
  rows.mapM fun r => (decodeSetting (dims (r.1 - 1)) r.2.1).map fun l => (r.1, l.headD 0, r.2.2)

end Verif.Knowable

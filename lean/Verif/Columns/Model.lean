import Verif.Scenario.Commute
import Verif.Common.Sort
import Verif.Normalization.Model
/-
Model of the construction of the generating set from a specification: `_build_cols_from_specs`, sdp/InflationSDP.py 1735-1793, and `build_columns`, 1083-1259.
The verbose output and the progress bar are not modelled. The canonical form is passed as a function (`_to_canonical_memoized_1d`, see C34).
-/
namespace Verif.Columns
open Verif.Scenario Verif.Canon Verif.Common

/-- `np.nonzero(np.logical_and(self._lexorder[:, 0] == party + 1, self._lexorder[:, -1] != self.outcome_cardinalities[party] - 1))[0]`, InflationSDP.py 1777-1781. `lex` is `self._lexorder` (the zero operator in front), `card` is `self.outcome_cardinalities`. -/
def measOps (lex : List Op) (card : Nat → Nat) (party : Nat) : List Nat :=
  (List.range lex.length).filter fun i => lex[i]?.any fun op => op.party == party + 1 && op.outcome + 1 != card party

/-- `itertools.product`. -/
def product {α : Type} : List (List α) → List (List α)
  | [] => [[]]
  | l :: ls => l.flatMap fun x => (product ls).map (x :: ·)

/-- One round of the inner loop, InflationSDP.py 1783-1790; state is `columns` and `seen_columns`. -/
def wordStep (canon : List Nat → List Nat) (len : Nat) (st : List (List Nat) × List (List Nat)) (w : List Nat) :
    List (List Nat) × List (List Nat) :=
  if canon w ≠ [0] ∧ (canon w).length = len ∧ canon w ∉ st.2 then (st.1 ++ [canon w], st.2 ++ [canon w]) else st

/-- One round of the outer loop, InflationSDP.py 1771-1790. -/
def blockStep (canon : List Nat → List Nat) (ops : Nat → List Nat) (st : List (List Nat) × List (List Nat)) (block : List Nat) :
    List (List Nat) × List (List Nat) :=
  if block = [] then (st.1 ++ [[]], st.2 ++ [[]])
  else (product (block.map ops)).foldl (wordStep canon block.length) st

/-- `_build_cols_from_specs`, InflationSDP.py 1735-1793. -/
def colsFromSpecs (canon : List Nat → List Nat) (ops : Nat → List Nat) (specs : List (List Nat)) : List (List Nat) :=
  (specs.foldl (blockStep canon ops) ([], [])).1

/-- `np.all(a[:-1] <= a[1:])`. -/
def increasing : List Nat → Bool
  | a :: b :: t => decide (a ≤ b) && increasing (b :: t)
  | _ => true

/-- The cut-off `max_monomial_length`, InflationSDP.py 1147-1152 and 1182-1186 (0: no limit). -/
def cutoff (level maxLen : Nat) : Nat := if 0 < maxLen ∧ maxLen < level then maxLen else level

/-- The blocks of `"npaN"`, InflationSDP.py 1144-1160. -/
def npaSpecs (nParties level maxLen : Nat) : List (List Nat) :=
  [] :: (List.range (cutoff level maxLen)).flatMap fun k =>
    (product (List.replicate (k + 1) (List.range nParties))).filter increasing

/-- The key `(sum(x), [-p for p in x])` compared as Python tuples: smaller sum first, then larger entries first. -/
def descLe : List Nat → List Nat → Bool
  | [], _ => true
  | _ :: _, [] => false
  | a :: s, b :: t => decide (b < a) || (a == b && descLe s t)

def freqLe (x y : List Nat) : Bool := decide (x.sum < y.sum) || (x.sum == y.sum && descLe x y)

/-- `operators += [party] * pfreq[party]`, InflationSDP.py 1196-1199. -/
def blockOf (nParties : Nat) (pfreq : List Nat) : List Nat := (List.range nParties).flatMap fun p => List.replicate (pfreq.getD p 0) p

/-- The blocks of `"localN"`, InflationSDP.py 1179-1200. -/
def localSpecs (nParties : Nat) (lengths : List Nat) (maxLen : Nat) : List (List Nat) :=
  (sortBy freqLe ((product (lengths.map fun l => List.range (l + 1))).filter fun f => decide (f.sum ≤ cutoff lengths.sum maxLen))).map (blockOf nParties)

/-- The key `(len(x), tuple(x))`, InflationSDP.py 1256-1258. -/
def colLe (x y : List Nat) : Bool := decide (x.length < y.length) || (x.length == y.length && lexLe x y)
where
  /-- Comparison of tuples. -/
  lexLe : List Nat → List Nat → Bool
  | [], _ => true
  | _ :: _, [] => false
  | a :: s, b :: t => decide (a < b) || (a == b && lexLe s t)

/-- The end of `build_columns`, InflationSDP.py 1240-1259: if a column is repeated the list is sorted (and a warning issued), but the repetition stays. -/
def finish (columns : List (List Nat)) : List (List Nat) :=
  if (Verif.Normalization.columnIndex columns).length ≠ columns.length then sortBy colLe columns else columns

end Verif.Columns

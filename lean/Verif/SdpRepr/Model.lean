import Verif.Canon.Model
import Verif.Common.Sort
import Verif.MomentMatrix.Model
/-
Model of the memoised canonicalisation of the SDP: `_to_canonical_memoized_1d`, `_inflation_orbit_and_rep_1d`,
`_to_inflation_repr_1d`, `_conjugate_lexmon` (InflationSDP.py) and `is_hermitian` (sdp/monomial_classes.py). Dictionaries are
association lists in which a newer entry shadows an older one.
-/
namespace Verif.SdpRepr
open Verif.Canon Verif.Common Verif.MomentMatrix

/-- `canon_lexmon_from_hash`, `canonsym_lexmon_from_hash`, InflationSDP.py 207-208. -/
abbrev Memo := List (List Nat × List Nat)

/-- `len(lexmon) == 0 or np.array_equiv(lexmon, 0)`, InflationSDP.py 1614, 2276 (numpy compares every entry with 0). -/
def allZero (w : List Nat) : Bool := w.all (· == 0)

variable (nc om : BMat) (commuting : Bool) (rows : List (List Nat))

/-- `_to_canonical_memoized_1d`, InflationSDP.py 2252-2291: new dictionary and result. The key does not mention the flag
`apply_only_commutations`. -/
def canonMemo (c : Memo) (flag : Bool) (w : List Nat) : Memo × List Nat :=
  match c.lookup w with
  | some r => (c, r)
  | none =>
    if allZero w then ((w, w) :: c, w)
    else
      let r := toCanonical nc om commuting flag w
      ((r, r) :: (w, r) :: c, r)

/-- `permuted_variants`, InflationSDP.py 1472-1473 (`np.unique(axis=0)` sorts the rows and removes repetitions; an index outside
the symmetry row, which raises, is left in place here). -/
def variants (w : List Nat) : List (List Nat) :=
  sortBy lexLe (dedupB (rows.map fun r => w.map fun x => r.getD x x))

/-- The list comprehension of `_inflation_orbit_and_rep_1d`, InflationSDP.py 1474-1477. -/
def canonAll (c : Memo) : List (List Nat) → Memo × List (List Nat)
  | [] => (c, [])
  | v :: t =>
    let a := canonMemo nc om commuting c true v
    let b := canonAll a.1 t
    (b.1, a.2 :: b.2)

/-- `min` of a list of tuples. -/
def minTuple : List (List Nat) → List Nat
  | [] => []
  | [a] => a
  | a :: b :: t => lexMin a (minTuple (b :: t))

/-- The two dictionaries. -/
structure Mem where
  canon : Memo
  sym : Memo

/-- `_to_inflation_repr_1d`, InflationSDP.py 1593-1637 (all keys added at the end get the same value, so their order is
irrelevant). -/
def reprMemo (m : Mem) (flag : Bool) (w : List Nat) : Mem × List Nat :=
  if allZero w then (⟨m.canon, (w, w) :: m.sym⟩, w)
  else match m.sym.lookup w with
  | some r => (m, r)
  | none =>
    let a := canonMemo nc om commuting m.canon flag w
    match m.sym.lookup a.2 with
    | some r => (⟨a.1, (w, r) :: m.sym⟩, r)
    | none =>
      let b := canonAll nc om commuting a.1 (variants rows w)
      let rep := minTuple b.2
      (⟨b.1, (w, rep) :: (b.2.map fun k => (k, rep)) ++ m.sym⟩, rep)

/-- `all_commuting_q_1d`, InflationSDP.py 198-203. -/
def allCommuting (w : List Nat) : Bool := commuting || !(w.any fun a => w.any fun b => nc a b)

/-- `_conjugate_lexmon` with its default flag, InflationSDP.py 1432-1455. -/
def conjugate (m : Mem) (w : List Nat) : Mem × List Nat :=
  if allCommuting nc commuting w then (m, w) else reprMemo nc om commuting rows m true w.reverse

/-- `InternalAtomicMonomialSDP.is_hermitian`, sdp/monomial_classes.py 86-90. -/
def isHermitian (m : Mem) (w : List Nat) : Bool := (conjugate nc om commuting rows m w).2 == w

/-- A call that uses the dictionaries. -/
inductive Call
  | canon (flag : Bool) (w : List Nat)
  | repr (flag : Bool) (w : List Nat)

/-- The dictionaries after one call. -/
def Call.run (m : Mem) : Call → Mem
  | .canon flag w => ⟨(canonMemo nc om commuting m.canon flag w).1, m.sym⟩
  | .repr flag w => (reprMemo nc om commuting rows m flag w).1

/-- The dictionaries after a history of calls, both being empty at the beginning (InflationSDP.py 207-208). -/
def after (history : List Call) : Mem := history.foldl (Call.run nc om commuting rows) ⟨[], []⟩

end Verif.SdpRepr

import Verif.Components.Model
import Verif.Common.Unique
/-
Model of `nb_monomial_to_components`, `nb_indices_of_more_than_one_op_per_party_per_factor` and `nb_is_physical` (fast_npa.py).
-/
namespace Verif.Positivity
open Verif.Scenario Verif.Common Verif.Components

/-- `nb_monomial_to_components`, fast_npa.py 218-247. -/
def monomialComponents (mon : List Op) : List Nat :=
  if mon.length ≤ 1 then List.replicate mon.length 0
  else classify mon.length (overlapMatrix (mon.map (·.copies)))

/-- `while len(factor) and np.array_equal(factor[0], factor[-1]): factor = factor[1:-1]`, fast_npa.py 313-316; the
first argument bounds the number of rounds (the length suffices). -/
def strip : Nat → List Op → List Op
  | 0, l => l
  | n + 1, l => if l.isEmpty then l else if l.head? == l.getLast? then strip n l.tail.dropLast else l

/-- The operators of one party whose component has number `i`, fast_npa.py 307-310. -/
def factor (pm : List Op) (i : Nat) : List Op :=
  ((List.zip pm (monomialComponents pm)).filter fun t => t.2 == i).map Prod.fst

/-- `nb_indices_of_more_than_one_op_per_party_per_factor(...).any()`, fast_npa.py 281-319 (only whether something is picked is
modelled, not the positions). -/
def somethingPicked (sandwich : Bool) (mon : List Op) : Bool :=
  (npUnique (mon.map (·.party))).any fun p =>
    let pm := mon.filter fun op => op.party == p
    (List.range ((monomialComponents pm).foldl max 0 + 1)).any fun i =>
      let f := factor pm i
      decide ((if sandwich then strip f.length f else f).length > 1)

/-- `nb_is_physical`, fast_npa.py 322-345. -/
def isPhysical (sandwich : Bool) (mon : List Op) : Bool := !(somethingPicked sandwich mon)

end Verif.Positivity

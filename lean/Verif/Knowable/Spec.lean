import Verif.Symmetry.Spec
import Verif.Scenario.Model
/-
What it means for a monomial to be an event of the original (not inflated) network.
-/
namespace Verif.Knowable
open Verif.Scenario Verif.Symmetry

/-- After relabelling source copies by `g`, all operators act on first copies only (label 0 means "does not measure the source"). -/
def OnFirstCopies (g : Nat → Nat → Nat) (mon : List Op) : Prop :=
  ∀ op ∈ mon, ∀ c ∈ (act g op).copies, c ≤ 1

/-- The monomial says, for a set of parties that contains all parents of its members, "party `p` used its private setting `x p`
and obtained `o p`", the settings of each party that come from its parents being the outcomes of those parents. -/
structure IsEvent (parents dims : Nat → List Nat) (x o : Nat → Nat) (mon : List Op) : Prop where
  closed : ∀ op ∈ mon, ∀ q ∈ parents (op.party - 1), ∃ op' ∈ mon, op'.party - 1 = q
  outcome : ∀ op ∈ mon, op.outcome = o (op.party - 1)
  setting : ∀ op ∈ mon, decodeSetting (dims (op.party - 1)) op.setting =
    some (x (op.party - 1) :: (parents (op.party - 1)).map o)

end Verif.Knowable

import Verif.Columns.Props
import Verif.SdpEnd.Model
/-!
The monomials that a physical generating set should consist of.
-/
namespace Verif.Physical
open Verif.Scenario Verif.SdpEnd
open Verif.Columns (Allowed partyOf)
open Verif.EndToEnd (Input)

/-- The outcomes `x` and `y` can be observed together: they commute and do not belong to the same measurement. -/
def Together (I : Input) (x y : Nat) : Prop := notcomm I x y = false ∧ orthomat I x y = false

/-- At most `maxLen` operators (if positive) and, for every party with a level, at most as many operators of that party. -/
structure Within (I : Input) (maxLen : Nat) (caps : List (Option Nat)) (m : List Nat) : Prop where
  length : maxLen = 0 ∨ m.length ≤ maxLen
  party : ∀ p c, caps[p]? = some (some c) → (m.map (partyOf I.scenario)).count p ≤ c

/-- Operators that may appear in columns, in increasing order and pairwise observable together, within the levels. -/
structure PhysicalWord (I : Input) (maxLen : Nat) (caps : List (Option Nat)) (m : List Nat) : Prop where
  sorted : m.Pairwise (· < ·)
  letters : ∀ x ∈ m, ∃ p, Allowed I.scenario (cardinalities I) p x
  together : m.Pairwise (Together I)
  within : Within I maxLen caps m

end Verif.Physical

import Mathlib.Logic.Relation
import Verif.Scenario.Model
/-
Connectedness, independent of how it is computed.
-/
namespace Verif.Components
open Verif.Scenario

/-- Vertices `0..n-1` joined by a path of edges. -/
def Connected (n : Nat) (adj : Nat → Nat → Bool) : Nat → Nat → Prop :=
  Relation.ReflTransGen fun a b => a < n ∧ b < n ∧ adj a b = true

/-- Two operators act on the same copy of some source. -/
def ShareCopy (a b : Op) : Prop :=
  ∃ s c : Nat, c ≠ 0 ∧ a.copies[s]? = some c ∧ b.copies[s]? = some c

/-- Two operators act on exactly the same copies, or on a common copy of some source. -/
def Touch (S : Scenario) (i j : Nat) : Prop :=
  ∃ a b, S.lexorder[i]? = some a ∧ S.lexorder[j]? = some b ∧ (a.copies = b.copies ∨ ShareCopy a b)

/-- Joined by a chain of operators of the monomial, neighbours in the chain touching each other. -/
def Joined (S : Scenario) (mon : List Nat) : Nat → Nat → Prop :=
  Relation.ReflTransGen fun i j => i ∈ mon ∧ j ∈ mon ∧ Touch S i j

end Verif.Components

import Verif.Scenario.Commute
import Verif.Canon.Spec
/-
Operators available to a party, and equality of monomials as operators.
-/
namespace Verif.Columns
open Verif.Scenario Verif.Canon.Spec

/-- `x` is the rank of an operator of party `p` (counted from 0) whose outcome is not the last one according to `card`. -/
def Allowed (S : Scenario) (card : Nat → Nat) (p x : Nat) : Prop :=
  ∃ o, S.sdpLexorder[x]? = some o ∧ o.party = p + 1 ∧ o.outcome + 1 ≠ card p

/-- Two monomials of a problem are the same operator: commutation, idempotence and orthogonality of outcomes turn one into the other. -/
def Same (S : Scenario) (D : DagInput) (q : Bool) (u v : List Nat) : Prop :=
  OpEq (S.lexorder.length + 1) (fun a b => padMat (S.notcomm D.tbl q) a b = false) (fun a b => S.orthomat a b = true) u v

/-- Operators of different parties commute. -/
def PartiesCommute (S : Scenario) (D : DagInput) (q : Bool) : Prop :=
  ∀ x y a b, S.sdpLexorder[x]? = some a → S.sdpLexorder[y]? = some b → a.party ≠ b.party → padMat (S.notcomm D.tbl q) x y = false

end Verif.Columns

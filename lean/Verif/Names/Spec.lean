import Verif.Names.Model
/-
Vocabulary of the statements about names.
-/
namespace Verif.Names
open Verif.Scenario Verif.Text

/-- The names belong to the problem: one different name per party, and the settings of a party are the combinations of its private setting and the outcomes of its parents (C13). -/
structure Fits (S : Scenario) (N : Naming) : Prop where
  len : N.names.length = S.nParties
  nodup : N.names.Nodup
  settings : ∀ p < S.nParties, S.settings p = effectiveSettings (dims S N p)

/-- No party name contains one of the given characters. -/
def Avoid (N : Naming) (cs : List Char) : Prop := ∀ n ∈ N.names, ∀ c ∈ cs, c ∉ n

instance (N : Naming) (cs : List Char) : Decidable (Avoid N cs) := by unfold Avoid; infer_instance

end Verif.Names

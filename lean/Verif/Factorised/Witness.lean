import Verif.Factorised.Props
import Verif.Distinct.Witness
import Verif.EndToEnd.Witness
import Verif.QuantumNet.Witness
/-
Concrete cases of C63.
-/
namespace Verif.Factorised
open Verif.Common Verif.Moment Verif.State Verif.EndToEnd Verif.Sanitise Verif.Distinct
open Verif.SdpEnd (copiesOf)

def fourNames : List Text.Str := [['A'], ['B'], ['C'], ['D']]

theorem bilocal_named : NamesOk bilocal fourNames := by decide +kernel

theorem bilocal_copies : copiesOf bilocal.scenario ≤ 254 := by decide +kernel

/-- A chain of three parties and a separate fourth one: the conditions of the program, which include a product of two factors, by column number and by name. -/
example : ((conditions bilocal (generated bilocal fourNames)).map fun L => decide (L ≠ [] ∧ ∃ t ∈ L, t.2.length = 2)) = some true := by decide +kernel

example : ((conditionsByName bilocal fourNames (generated bilocal fourNames)).bind fun d => d.get "P[A=0]^2*P[C=0]".toList) = some ["P[A=0]".toList, "P[A=0]".toList, "P[C=0]".toList] := by decide +kernel

/-- The numbers of the columns of a classical model of it satisfy the conditions. -/
example : ∃ L Q, sparseConditions bilocal (generated bilocal fourNames) = some L ∧ sparseQuadratic bilocal (generated bilocal fourNames) = some Q ∧
    Obeys L (fun i => bilocalModel.vec (bilocal.columns.getD i [])) ∧ ObeysQuadratic Q (fun i => bilocalModel.vec (bilocal.columns.getD i [])) :=
  C63_hold_classical (order := []) bilocal_accepted bilocal_copies bilocal_named .refl bilocalModel

/-- Sixty sources: the conditions exist although the program is too large to be evaluated. -/
example : ∃ L, conditions triangle (generated triangle [['A'], ['B'], ['C']]) = some L ∧ ∀ t ∈ L, t.2.flatten = t.1 := by
  obtain ⟨L, h1, -, -, h2⟩ := C63_conditions (order := []) triangle_accepted triangle_copies (by decide +kernel : NamesOk triangle [['A'], ['B'], ['C']]) .refl
  exact ⟨L, h1, fun t ht => (h2 t ht).1⟩

end Verif.Factorised

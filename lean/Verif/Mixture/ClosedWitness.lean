import Verif.Mixture.ClosedProps
import Verif.Mixture.Witness
import Verif.Mixture.Refused
/-!
The hypotheses of C76 for closed generating sets are met by the coin shared by two copies; the generating set of `C76_false_always_solved` is not closed.
-/
namespace Verif.Mixture
open Verif.Common Verif.Canon Verif.Canon.Spec Verif.Scenario Verif.Moment Verif.SdpRepr Verif.SdpEnd Verif.SdpNames Verif.Hierarchy Verif.Generate Verif.Linear Verif.Physical
open Verif.State (Dict Mon)
open Verif.Columns (npaSpecs)

/-- The coin shared by both copies is allowed by the second NPA level: the program is built, the coin is accepted and the arguments of the solver can be prepared and satisfied. -/
example : ∃ B, build twoCopies (specCols twoCopies (npaSpecs twoCopies.scenario.nParties 2 0)) (freshChoice twoCopies) letters = some B ∧
    ∃ c, setDistribution twoCopies B (mix Finset.univ weights constantP) false true = some c ∧ ∃ a, SdpState.solverArgs B.env (SdpState.run B.env (fun _ => ⟨"feasible", 0⟩) [c]) = some a ∧
      ∃ v, (solverInput (specCols twoCopies (npaSpecs twoCopies.scenario.nParties 2 0)).length B a).Solves false v 0 := by
  obtain ⟨B, hB, h⟩ := C76_npa_levels two_accepted two_wellFormed two_hasSources (fresh_usual twoCopies) (freshChoice_computed _) letters (by decide +kernel) (by decide +kernel) 2 0
  obtain ⟨c, hc, _, h⟩ := h 2 weights constantP (by decide +kernel) (by rw [Fin.sum_univ_two]; decide +kernel) fun k => ⟨Unit, inferInstance, constantModel k, constant_generates k⟩
  obtain ⟨a, ha, hv⟩ := h (fun _ => ⟨"feasible", 0⟩) [] (by simp)
  exact ⟨B, hB, c, hc, a, ha, hv⟩

/-- The set of 1 and A1*A2 is not closed: A1 commutes with A2 and is missing. -/
example : ¬ SubClosed twoCopies [[], [1, 5]] := by
  intro h
  obtain ⟨u, hu, hs⟩ := h [1, 5] (by simp) (fun x => x == 1) (by decide +kernel)
  have hm : [1, 5].filter (fun x => x == 1) = [1] := by decide
  rw [hm] at hs
  have hlt : ∀ w ∈ [[1], [], [1, 5]], InRange twoCopies w := by
    have : ∀ w ∈ [[1], [], [1, 5]], ∀ x ∈ w, x < nOps twoCopies := by decide +kernel
    exact this
  have hc := (C03_canonical_decides_operator_equality (operatorList twoCopies) [1] u (hlt _ (by simp)) (hlt _ (by simp at hu ⊢; tauto))).2 hs
  have : ∀ u ∈ [[], [1, 5]], toCanonical (notcomm twoCopies) (orthomat twoCopies) false false [1] ≠ toCanonical (notcomm twoCopies) (orthomat twoCopies) false false u := by decide +kernel
  exact this u hu hc

end Verif.Mixture

import Verif.Physical.Props
import Verif.Generate.Witness
/-!
The hypotheses of C69 are met: the Bell scenario and two copies of a party.
-/
namespace Verif.Physical
open Verif.Common Verif.Canon Verif.Scenario Verif.SdpEnd Verif.SdpNames Verif.Generate
open Verif.Theory (bell bell_accepted)
open Verif.Columns (partyOf Same)

/-- All products of one operator of each party. -/
theorem bell_physical : physicalCols bell 0 [none, none] = [[], [1], [3], [5], [7], [1, 5], [1, 7], [3, 5], [3, 7]] := by decide +kernel

/-- Level 1 for the first party, 0 for the second. -/
example : physicalCols bell 0 [some 1, some 0] = [[], [1], [3]] := by decide +kernel

/-- At most one operator. -/
example : physicalCols bell 1 [none, none] = [[], [1], [3], [5], [7]] := by decide +kernel

example : HasOutcomes bell := hasOutcomes bell_accepted

/-- A word that meets the specification, and one that does not although its operators commute: the two outcomes of a measurement. -/
example : PhysicalWord bell 0 [none, none] [1, 7] ∧ ¬ PhysicalWord bell 0 [none, none] [1, 2] ∧ ¬ PhysicalWord bell 0 [none, none] [1, 3] := by
  have h := fun m => mem_physicalCols (hasOutcomes bell_accepted) 0 [none, none] m
  refine ⟨(h _).1 (by decide +kernel), fun h' => ?_, fun h' => ?_⟩
  · exact absurd ((h _).2 h') (by decide +kernel)
  · exact absurd ((h _).2 h') (by decide +kernel)

/-- The hypotheses of `C69_every_product` are met by `B₁ A₀` (in this order). -/
example : ∃ m ∈ physicalCols bell 0 [none, none], Same bell.scenario bell.D bell.anyNonclassical [7, 1] m := by
  have hl : ∀ x ∈ [7, 1], ∃ p, Columns.Allowed bell.scenario (cardinalities bell) p x := by
    have h := ((mem_physicalCols (hasOutcomes bell_accepted) 0 [none, none] [1, 7]).1 (by decide +kernel)).letters
    intro x hx
    exact h x (by simp at hx ⊢; tauto)
  have hw : Within bell 0 [none, none] [7, 1] := by
    refine ⟨.inl rfl, ?_⟩
    intro p c h
    rcases p with _ | _ | p <;> simp at h
  have h0 : ¬ Same bell.scenario bell.D bell.anyNonclassical [7, 1] [0] := by
    intro h
    have := (C03_canonical_detects_zero (operatorList bell) [7, 1] (by decide +kernel)).2 h
    exact absurd this (by decide +kernel)
  obtain ⟨m, h1, h2, -⟩ := C69_every_product (hasOutcomes bell_accepted) 0 [none, none] (by decide) hl (by decide +kernel) hw h0
  exact ⟨m, h1, h2⟩

/-- Two copies: the operators of different copies commute, those of the two measurements of a copy do not. -/
example : physicalCols twoCopies 0 [none] = [[], [1], [3], [5], [7], [1, 5], [1, 7], [3, 5], [3, 7]] ∧
    ∃ B, build twoCopies (physicalCols twoCopies 0 [none]) (freshChoice twoCopies) letters = some B :=
  ⟨by decide +kernel, C69_relaxation_generated (by intro p hp; have hp : p < 1 := hp; obtain rfl : p = 0 := by omega
                                                   decide +kernel) 0 [none] (fresh_usual twoCopies) letters (by decide +kernel) (.inl (by decide +kernel))⟩

end Verif.Physical

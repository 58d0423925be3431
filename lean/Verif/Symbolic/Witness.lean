import Verif.Symbolic.Props
import Verif.SdpNames.Witness
import Verif.EndToEnd.Witness
/-!
The hypotheses of C71 are met: the generating sets of the Bell scenario. For the instrumental scenario they are not read.
-/
namespace Verif.Symbolic
open Verif.Common Verif.Scenario Verif.SdpEnd Verif.SdpNames Verif.Text Verif.Names Verif.Generate
open Verif.EndToEnd (Input instr)
open Verif.Sanitise (NamesOk)
open Verif.Theory (bell)

/-- A program that has not been generated has no atoms (`AttributeError`, InflationSDP.py 1696). -/
theorem no_atoms (I : Input) (names : List Str) (ch : Choice) : AtomTable I names ch fun _ => none := by
  intro t rows h
  cases h

theorem bell_plain : Plain bell [1, 5] := by
  have h := momentOf_proper (I := bell) (fresh_usual bell) letters (w := [1, 5]) (by decide +kernel) (reduced_of_canonical (by decide +kernel) (by decide +kernel))
    fun _ => capacity_of_copies _ (by decide +kernel) (by decide +kernel)
  rw [bell_known] at h
  rcases h.atoms with e | h
  · exact absurd e (by decide)
  · exact h _ (by simp)

/-- A table with one entry: the moment of `A₀B₀`. -/
theorem bell_atoms : AtomTable bell bellNames (freshChoice bell) fun t => if t = "P[A_0=0 B_0=0]".toList then some [⟨1, [1], 0, 0⟩, ⟨2, [1], 0, 0⟩] else none := by
  intro t rows h
  dsimp only at h
  split at h
  · rename_i ht
    refine ⟨[1, 5], .inl ?_, .inl ?_⟩
    · exact bell_plain
    · rw [ht]
      have : "P[A_0=0 B_0=0]".toList = createdText bell bellNames [1, 5] := by decide +kernel
      rw [this]
      exact .created
  · cases h

/-- The expressions of a generating set. -/
example : symbolic bell bellNames [[], [1], [1, 3, 5]] =
    [.prod [], .prod [("A_0=0".toList, 1)], .prod [("A_0=0".toList, 1), ("A_1=0".toList, 1), ("B_0=0".toList, 1)]] := by decide +kernel

/-- Powers are expanded. -/
example : symbolic bell bellNames [[1, 1, 3, 1]] = [.prod [("A_0=0".toList, 2), ("A_1=0".toList, 1), ("A_0=0".toList, 1)]] := by decide +kernel

/-- The generating set of blocks of at most two parties is read back. -/
example : readList bell bellNames (fun t => if t = "P[A_0=0 B_0=0]".toList then some [⟨1, [1], 0, 0⟩, ⟨2, [1], 0, 0⟩] else none) toKill
      ((symbolic bell bellNames (specCols bell [[], [0], [1], [0, 1]])).map .expr) = some [[], [1], [3], [5], [7], [1, 5], [1, 7], [3, 5], [3, 7]] := by
  rw [C71_levels_partial (by decide) bell_atoms (by decide +kernel) (by simp)]
  decide +kernel

/-- A column that is an atom, and a column that is a number. -/
example : readList bell bellNames (fun t => if t = "P[A_0=0 B_0=0]".toList then some [⟨1, [1], 0, 0⟩, ⟨2, [1], 0, 0⟩] else none) toKill [.expr (.prod [("P[A_0=0 B_0=0]".toList, 1)])] = some [[1, 5]] := by
  rw [C71_named_atom (rows := [⟨1, [1], 0, 0⟩, ⟨2, [1], 0, 0⟩]) (by decide +kernel) (fun x hx => (Scenario.mem_lexorder _).1 ((by decide +kernel : ∀ x ∈ ([⟨1, [1], 0, 0⟩, ⟨2, [1], 0, 0⟩] : List Op), x ∈ bell.scenario.lexorder) x hx))]
  decide +kernel

def instrNames : List Str := [['A'], ['B']]

/-- **C71, refuted for parties with observed parents**: what `build_columns("npa1", symbolic=True)` returns for the instrumental scenario is not accepted (`AssertionError`). -/
theorem C71_false_with_observed_parents : ∃ (I : Input) (names : List Str) (ch : Choice), NamesOk I names ∧ AtomTable I names ch (fun _ => none) ∧
    ∀ order, readList I names (fun _ => none) order ((symbolic I names (specCols I (Columns.npaSpecs I.scenario.nParties 1 0))).map .expr) = none := by
  refine ⟨instr, instrNames, freshChoice instr, by decide, no_atoms _ _ _, fun order => ?_⟩
  rw [C71_symbolic_columns (by decide) (no_atoms instr instrNames (freshChoice instr)) (letters_specCols _), if_neg]
  · intro h
    have h := h [5] (by decide +kernel) 5 (by simp) ⟨2, [1], 0, 0⟩ (by decide +kernel)
    revert h
    decide +kernel
  · intro e
    have := unit_npa (I := instr) 1 0
    rw [e] at this
    simp at this

end Verif.Symbolic

import Verif.Views.End
import Verif.Sanitise.Witness
import Verif.Distinct.Witness
import Verif.Writers.LpWitness
/-
Concrete cases of C62, and the case in which the absorbed bounds are wrong.
-/
namespace Verif.Views
open Verif.Common Verif.Moment Verif.State Verif.Writers Verif.Text Verif.EndToEnd Verif.Distinct Verif.Sanitise Verif.SdpEnd

def quiet : Args → SolverOut := fun _ => ⟨true, "", 0⟩

/-- Calls on the problem of two parties and one source. -/
def pairCalls : List (Call Mon) :=
  [.setValues [([[0]], some (1 / 2)), ([[2]], some (1 / 2))] false false, .setLower (some [([[0, 2]], 1 / 5)]), .setExtraIneq [[([[0, 2]], -3), (one, 1)]],
   .setObjective (some [([[0, 2]], 2)]) true]

/-- The dictionary of the pair: the names, the values, the absorbed constant and the objective. -/
example : ((pair.lpEnv (atomName pair pairNames)).map fun E =>
    ((prepareByName E true (run E quiet pairCalls)).1.map fun A => decide (A.vars = ["1", "P[A=0]", "P[B=0]", "P[A=0 B=0]", "constant_term"] ∧
      A.known = [("1", 1), ("P[A=0]", 1 / 2), ("P[B=0]", 1 / 2)] ∧ A.lower = [("P[A=0 B=0]", 1 / 5)] ∧ A.objective = [("P[A=0 B=0]", 2)] ∧
      [("1", 1), ("P[A=0 B=0]", -3)] ∈ A.inequalities))) = some (some true) := by
  decide +kernel

/-- Sixty sources: the export of a problem far too large to be evaluated, after setting any distribution and bounding the unit, and a point of the problem satisfies the rows of the file. -/
example (P : List Nat → Rat) (lpi shared : Bool) : ∃ E c p rows, triangle.lpEnv (atomName triangle [['A'], ['B'], ['C']]) = some E ∧ triangle.setDistribution P lpi shared = some c ∧
    (∃ A s', prepareByName E true (run E quiet [c, .setUpper (some [(one, 2)]), .readEqByName]) = (some A, s') ∧ processArguments A = some p) ∧
      readRows ratNum (writeToLp ratFmt id "f.lp".toList p) = some rows ∧
      ∀ y, Satisfies E (run E quiet [c, .setUpper (some [(one, 2)]), .readEqByName]) y → ∀ r ∈ rows, r.holds (columns E y) := by
  obtain ⟨⟨E, hE⟩, hone, _⟩ := C61_construction_succeeds triangle_accepted triangle_copies (atomName triangle [['A'], ['B'], ['C']])
  have h1 : one ∈ triangle.monomials := List.mem_of_head? hone
  have hsan : E.san = id := by obtain ⟨_, _, _, _, _, _, rfl⟩ := lpEnv_some hE; rfl
  obtain ⟨vals, hc, _⟩ := C61_set_distribution_succeeds triangle_accepted triangle_copies P lpi shared
  have hN : NamesOk triangle [['A'], ['B'], ['C']] := by decide +kernel
  obtain ⟨A, s', p, rows, -, -, h1, h2, h3, -, -, -, h4⟩ := C62_file_of_accepted_partial triangle_accepted triangle_copies hN hE quiet
    [.setValues vals lpi shared, .setUpper (some [(one, 2)]), .readEqByName] (by
      intro c hm
      simp only [List.mem_cons, List.not_mem_nil, or_false] at hm
      rcases hm with rfl | rfl | rfl
      · exact .distribution hc
      · exact .direct (by simp [mentions, hsan, h1]) trivial
      · exact .direct (by simp [mentions]) trivial)
    (C62_views_up_to_date E quiet [.setValues vals lpi shared] [.setUpper (some [(one, 2)]), .readEqByName] (by simp [readsViews]) (by simp [keepsConstraints])) ratFmt_faithful id (fun l => .refl l)
    "f.lp".toList (by decide)
  exact ⟨E, _, p, rows, hE, hc, ⟨A, s', h1, h2⟩, h3, h4⟩

/-- Two moments: the unit and one atom. -/
def tiny : Env Mon := ⟨⟨fun _ => true, fun _ => false, fun _ => false, fun _ => "p"⟩, id, [[], [[7]]], false, [], [[(0, 1), (1, -1)]]⟩

theorem tiny_ok : EnvOk tiny where
  nodup := by decide
  names := by decide +kernel
  minEq := by decide
  minIneq := by decide
  unit := rfl

/-- Non-vacuity of the absorbed bounds: a bound on the atom. -/
example : ∃ a A s', solverArgs tiny (run tiny quiet [.setLower (some [([[7]], 1 / 2)])]) = some a ∧
    prepareByName tiny false (run tiny quiet [.setLower (some [([[7]], 1 / 2)])]) = (some A, s') ∧ [("p", 1), ("1", -1 / 2)] ∈ A.inequalities := by
  have h0 : FreshViews tiny (run tiny quiet [.setLower (some [([[7]], 1 / 2)])]) := C62_views_up_to_date tiny quiet [.setLower (some [([[7]], 1 / 2)])] [] (by simp [readsViews]) (by simp)
  have ha : ∃ a, solverArgs tiny (run tiny quiet [.setLower (some [([[7]], 1 / 2)])]) = some a := Option.isSome_iff_exists.1 (by decide +kernel)
  obtain ⟨a, ha⟩ := ha
  obtain ⟨A, s', h1, -⟩ := C62_absorbed_bounds_by_name_partial tiny_ok quiet _ h0 ha (by decide +kernel) (by decide +kernel)
  refine ⟨a, A, s', ha, h1, ?_⟩
  have : ((prepareByName tiny false (run tiny quiet [.setLower (some [([[7]], 1 / 2)])])).1.map fun A => decide ([("p", 1), ("1", -1 / 2)] ∈ A.inequalities)) = some true := by decide +kernel
  rw [h1] at this
  simpa using this

/-- **C62 fails for a bound on the unit absorbed into the inequalities by name.** The bound `1/2` on the unit moment is recorded in a problem with solutions; in the dictionary with
`separate_bounds=False` the two entries for the unit have the same key, the inequality becomes `-1/2 · 1 ≥ 0`, and there are no solutions. (The matrices are right: `C62_absorbed_bounds`.) -/
theorem C62_false_absorbed_unit_bound : ∃ A s', prepareByName tiny false (run tiny quiet [.setLower (some [(one, 1 / 2)])]) = (some A, s') ∧
    Satisfies tiny (run tiny quiet [.setLower (some [(one, 1 / 2)])]) (fun _ => 1) ∧ ∀ z, ¬ NamedFeasible A z := by
  have h1 : ((prepareByName tiny false (run tiny quiet [.setLower (some [(one, 1 / 2)])])).1.map fun A => decide ([("1", -1 / 2)] ∈ A.inequalities ∧ ("1", 1) ∈ A.known)) = some true := by
    decide +kernel
  obtain ⟨A, hA, h2⟩ := Option.map_eq_some_iff.1 h1
  obtain ⟨h3, h4⟩ := of_decide_eq_true h2
  have ha : ∃ a, solverArgs tiny (run tiny quiet [.setLower (some [(one, 1 / 2)])]) = some a ∧ a = ⟨[], [(0, 1)], [], [[(0, 1), (1, -1)]], [(0, 1 / 2)], []⟩ := by
    refine ⟨_, ?_, rfl⟩
    decide +kernel
  obtain ⟨a, ha, rfl⟩ := ha
  refine ⟨A, _, Prod.ext hA rfl, (C29_arguments_faithful tiny quiet _ _ ha (fun _ => 1)).1 ?_, ?_⟩
  · constructor <;> simp [columns, dictVal] <;> norm_num
  · rintro z ⟨g1, ⟨-, -, g2⟩, -⟩
    have k1 := g1 _ h4
    have k2 := g2 _ h3 trivial
    simp only [lin, List.map_cons, List.map_nil, List.sum_cons, List.sum_nil] at k2
    have k1 : z "1" = 1 := k1
    rw [k1] at k2
    norm_num at k2

end Verif.Views

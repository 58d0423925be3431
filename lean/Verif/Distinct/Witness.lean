import Verif.Distinct.Props
import Verif.EndToEnd.DagWitness
import Verif.Theory.Witness
import Verif.QuantumNet.Witness
/-!
Concrete cases of C61, among them a program which is far too large to be evaluated.
-/
namespace Verif.Distinct
open Verif.Common Verif.Scenario Verif.Orbits Verif.Moment Verif.State Verif.EndToEnd
open Verif.SdpEnd (copiesOf)
open Verif.LpSolver (Flags buildTask)

/-- The triangle scenario with quantum sources, two settings and three outcomes per party, in the inflation with twenty copies of each source. -/
def triangle : Input where
  D := { names := [1, 2, 3], dag := [(10, [1, 2]), (11, [2, 3]), (12, [3, 1])], nonclassicalLatents := [], classicalLatents := [], classicalSources := [] }
  outcomes := [3, 3, 3]
  priv := [2, 2, 2]
  levels := [20, 20, 20]
  allOutcomes := false

theorem triangle_accepted : triangle.Accepted where
  outcomes_length := rfl
  priv_length := rfl
  parties := by decide
  outcomes_pos := by decide
  priv_pos := by decide
  acyclic := ⟨fun p => p, by decide +kernel⟩

theorem triangle_copies : copiesOf triangle.scenario ≤ 254 := by decide +kernel

/-- The program of the triangle with sixty sources exists, any array of numbers can be set as distribution, with any flags, after which the solver's task is defined, also after bounds and
an objective on the unit moment and with an extra inequality. -/
example (P : List Nat → Rat) (lpi shared : Bool) (f : Flags) : ∃ E c a, ∃ t : LpSolver.Task ℚ, triangle.lpEnv (fun _ => "") = some E ∧ triangle.setDistribution P lpi shared = some c ∧
    solverArgs E (run E (fun _ => ⟨true, "", 0⟩) [c, .setUpper (some [(one, 2)]), .setObjective (some [(one, 1)]) true, .setExtraIneq [[(one, 5)]]]) = some a ∧
      buildTask f (toSolver triangle.columns.length a) = some t := by
  obtain ⟨⟨E, hE⟩, hone, _⟩ := C61_construction_succeeds triangle_accepted triangle_copies fun _ => ""
  have h1 : one ∈ triangle.monomials := List.mem_of_head? hone
  have hsan : E.san = id := by obtain ⟨_, _, _, _, _, _, rfl⟩ := lpEnv_some hE; rfl
  obtain ⟨vals, hc, _⟩ := C61_set_distribution_succeeds triangle_accepted triangle_copies P lpi shared
  obtain ⟨a, ha, ht⟩ := C61_solve_reaches_solver (F := ℚ) triangle_accepted triangle_copies hE (fun _ => ⟨true, "", 0⟩)
    [.setValues vals lpi shared, .setUpper (some [(one, 2)]), .setObjective (some [(one, 1)]) true, .setExtraIneq [[(one, 5)]]] (by
      intro c hm
      simp only [List.mem_cons, List.not_mem_nil, or_false] at hm
      rcases hm with rfl | rfl | rfl | rfl
      · exact .distribution hc
      · exact .direct (by simp [mentions, hsan, h1]) trivial
      · exact .direct (by simp [mentions, hsan, h1]) trivial
      · exact .direct (by simp [mentions, hsan, h1]) (by
          intro d hd
          rw [List.mem_singleton] at hd
          subst hd
          exact ⟨(one, 5), by simp, by decide +kernel⟩))
  obtain ⟨t, ht⟩ := ht f
  exact ⟨E, _, a, t, hE, hc, ha, ht⟩

/-- The moments of the bilocality program, and a moment with two factors whose factors are moments. -/
example : bilocal.monomials.Nodup ∧ ∃ m ∈ bilocal.monomials, m.length = 2 ∧ ∀ a ∈ m, [a] ∈ bilocal.monomials := by
  have hS : copiesOf bilocal.scenario ≤ 254 := by decide +kernel
  refine ⟨(C61_construction_succeeds bilocal_accepted hS fun _ => "").2.2.1, ?_⟩
  have : (bilocal.monomials.any fun m => m.length == 2) = true := by decide +kernel
  obtain ⟨m, hm, hl⟩ := List.any_eq_true.1 this
  refine ⟨m, hm, by simpa using hl, fun a ha => ?_⟩
  have := C61_factors_are_moments bilocal_accepted hS hm (l := [a]) (List.singleton_subperm_iff.2 ha)
  simpa [sortBy, insertBy] using this

/-- A classical causal model with an intermediate latent goes through the pipeline. -/
example : ∃ E c a, latentInstr.lpEnv (fun _ => "") = some E ∧ latentInstr.setDistribution latentArray false false = some c ∧ solverArgs E (run E (fun _ => ⟨true, "", 0⟩) [c]) = some a ∧
    ∃ t : LpSolver.Task ℚ, buildTask ⟨false, false, false, false⟩ (toSolver latentInstr.columns.length a) = some t ∧ ∃ x, t.Feasible x := by
  obtain ⟨E, c, a, h1, h2, h3, h4⟩ := C61_pipeline_classical latentInstr_accepted (by decide +kernel) latentInstr_wellFormed latentModel latent_generates (fun _ => "")
    (fun _ => ⟨true, "", 0⟩) false
  obtain ⟨t, ht, h5, _⟩ := h4 ⟨false, false, false, false⟩ rfl rfl
  exact ⟨E, c, a, h1, h2, h3, t, ht, h5 rfl⟩

/-- The PR box goes through the pipeline of the nonfanout inflation. -/
example : ∃ E c a, Theory.bell.lpEnv (fun _ => "") = some E ∧ Theory.bell.setDistribution Theory.pr false false = some c ∧ solverArgs E (run E (fun _ => ⟨true, "", 0⟩) [c]) = some a ∧
    ∃ t : LpSolver.Task ℚ, buildTask ⟨false, false, false, false⟩ (toSolver Theory.bell.columns.length a) = some t ∧ ∃ x, t.Feasible x := by
  obtain ⟨E, c, a, h1, h2, h3, h4⟩ := C61_pipeline_theory Theory.bell_accepted (by decide +kernel) Theory.prBox Theory.pr_generated (fun _ => "") (fun _ => ⟨true, "", 0⟩) false
  obtain ⟨t, ht, h5, _⟩ := h4 ⟨false, false, false, false⟩ rfl rfl
  exact ⟨E, c, a, h1, h2, h3, t, ht, h5 rfl⟩

/-- A quantum network that violates the CHSH inequality goes through the pipeline of the nonfanout inflation. -/
example : ∃ E c a, Theory.bell.lpEnv (fun _ => "") = some E ∧ Theory.bell.setDistribution QuantumNet.chsh false false = some c ∧ solverArgs E (run E (fun _ => ⟨true, "", 0⟩) [c]) = some a ∧
    ∃ t : LpSolver.Task ℝ, buildTask ⟨false, false, false, false⟩ (toSolver Theory.bell.columns.length a) = some t ∧ ∃ x, t.Feasible x := by
  obtain ⟨E, c, a, h1, h2, h3, h4⟩ := C61_pipeline_quantum Theory.bell_accepted (by decide +kernel) QuantumNet.bellNetwork QuantumNet.chsh_generated (fun _ => "") (fun _ => ⟨true, "", 0⟩) false
  obtain ⟨t, ht, h5, _⟩ := h4 ⟨false, false, false, false⟩ rfl rfl
  exact ⟨E, c, a, h1, h2, h3, t, ht, h5 rfl⟩

/-- The trivial constraint `{}` makes `solve` raise in the instrumental scenario. -/
example : ∃ E a, instr.lpEnv (fun _ => "") = some E ∧ solverArgs E (run E (fun _ => ⟨true, "", 0⟩) ([] ++ [.setExtraEq [[]]])) = some a ∧
    ∀ f : Flags, (buildTask f (toSolver instr.columns.length a) : Option (LpSolver.Task ℚ)) = none := by
  have hS : copiesOf instr.scenario ≤ 254 := by decide +kernel
  obtain ⟨E, hE, hcl, hm, hsan⟩ := lpEnv_exists instr_accepted hS fun _ => ""
  obtain ⟨a, ha⟩ := Ready.solverArgs (run_good E (fun _ => ⟨true, "", 0⟩) ([] ++ [.setExtraEq [[]]])) (run_ready hcl (fun _ => ⟨true, "", 0⟩) _ (by
    intro c hc
    simp only [List.nil_append, List.mem_singleton] at hc
    subst hc
    simp [mentions]))
  exact ⟨E, a, hE, ha, fun f => C61_false_empty_constraint hE _ [] (l := [[]]) (d := []) (by simp) (by simp) (.inl ha) f⟩

end Verif.Distinct

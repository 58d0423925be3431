import Verif.Mixture.Props
import Verif.Linear.Witness
/-!
With `shared_randomness=True`, `solve` fails when an atom that the distribution determines occurs only inside products.
-/
namespace Verif.Mixture
open Verif.Common Verif.Scenario Verif.Moment Verif.SdpEnd Verif.SdpNames Verif.Hierarchy Verif.Generate Verif.Linear
open Verif.State (Dict Mon)

/-- **C76, false: with the option the program can always be solved.** One party, two copies of its source, the columns 1 and A¹A²: `set_distribution(P, shared_randomness=True)` records the value of the atom A, which is
not a moment of the program, and the assertion of `_prepare_solver_arguments` (InflationSDP.py 2143-2145) fails; without the option the program is solved. -/
theorem C76_false_always_solved : ∃ (B : Built) (c c' : SdpState.Call Mon), Setup twoCopies [[], [1, 5]] (freshChoice twoCopies) letters B ∧
    setDistribution twoCopies B twoP false true = some c ∧ setDistribution twoCopies B twoP false false = some c' ∧ ∀ solver : SdpState.Args → SdpState.SolverOut,
      SdpState.Ok B.env solver [c] ∧ SdpState.solverArgs B.env (SdpState.run B.env solver [c]) = none ∧ (SdpState.run B.env solver [c]).known.get [[1]] = some (1 / 4) ∧ [[1]] ∉ B.env.moments ∧
      SdpState.Ok B.env solver [c'] ∧ ∃ a, SdpState.solverArgs B.env (SdpState.run B.env solver [c']) = some a := by
  have hs : ((build twoCopies [[], [1, 5]] (freshChoice twoCopies) letters).bind fun B => (indexEqualities twoCopies [[], [1, 5]] B.sym).bind fun eqs =>
      (setDistribution twoCopies B twoP false true).bind fun c => (setDistribution twoCopies B twoP false false).map fun c' =>
        (eqs.all fun e => decide (e.1 :: e.2).Nodup) && (SdpState.call B.env (fun _ => ⟨"", 0⟩) (SdpState.init B.env) c).2.isNone &&
        (SdpState.solverArgs B.env (SdpState.run B.env (fun _ => ⟨"", 0⟩) [c])).isNone &&
        decide ((SdpState.run B.env (fun _ => ⟨"", 0⟩) [c]).known.get [[1]] = some (1 / 4)) && decide ([[1]] ∉ B.env.moments) &&
        (SdpState.call B.env (fun _ => ⟨"", 0⟩) (SdpState.init B.env) c').2.isNone &&
        (SdpState.solverArgs B.env (SdpState.run B.env (fun _ => ⟨"", 0⟩) [c'])).isSome) = some true := by decide +kernel
  obtain ⟨B, hB, h⟩ := Option.bind_eq_some_iff.1 hs
  obtain ⟨eqs, he, h⟩ := Option.bind_eq_some_iff.1 h
  obtain ⟨c, hc, h⟩ := Option.bind_eq_some_iff.1 h
  obtain ⟨c', hc', h⟩ := Option.map_eq_some_iff.1 h
  simp only [Bool.and_eq_true, decide_eq_true_eq] at h
  obtain ⟨⟨⟨⟨⟨⟨h1, h2⟩, h3⟩, h4⟩, h5⟩, h6⟩, h7⟩ := h
  obtain ⟨v, hv, rfl⟩ := Option.map_eq_some_iff.1 (show Option.map _ _ = _ from hc)
  obtain ⟨v', hv', rfl⟩ := Option.map_eq_some_iff.1 (show Option.map _ _ = _ from hc')
  have hone : ∀ (solver : SdpState.Args → SdpState.SolverOut) (c : SdpState.Call Mon), (SdpState.call B.env solver (SdpState.init B.env) c).2.isNone = true → SdpState.Ok B.env solver [c] := by
    intro solver c hok h1 d h2 e
    rcases h1 with _ | ⟨x, h1⟩
    · obtain ⟨rfl, _⟩ := List.cons.inj e
      exact Option.isNone_iff_eq_none.1 hok
    · simp at e
  exact ⟨B, _, _, ⟨colsOk_of (by decide +kernel) (by decide) (by decide +kernel), by decide +kernel, freshChoice_computed _, hB, equalitiesProper_of (by rw [he]; exact congrArg some h1)⟩, hc, hc', fun solver =>
    ⟨hone solver _ h2, Option.isNone_iff_eq_none.1 h3, h4, h5, hone solver _ h6, Option.isSome_iff_exists.1 h7⟩⟩

end Verif.Mixture

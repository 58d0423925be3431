import Verif.Hierarchy.Physical
import Verif.Linear.Witness
import Verif.QuantumNet.Witness
/-!
The hypotheses of C75 are met: two copies of a source, the first two NPA levels.
-/
namespace Verif.Hierarchy
open Verif.Common Verif.Canon Verif.Scenario Verif.Moment Verif.SdpEnd Verif.SdpNames Verif.Generate Verif.Linear
open Verif.State (Dict Mon)
open Verif.Columns (npaSpecs)
open Verif.EndToEnd (Input instr signalling)

/-- A solver. -/
def noSolver : SdpState.Args → SdpState.SolverOut := fun _ => ⟨"feasible", 0⟩

/-- The inflation of the model with random answers. -/
noncomputable def twoInflated := inflated two_accepted two_wellFormed two_hasSources twoModel

/-- The values of the model satisfy the program of every generating set. -/
theorem two_satisfied {cols : List (List Nat)} {B : Built} (hV : Setup twoCopies cols (freshChoice twoCopies) letters B) {c : SdpState.Call Mon} (hc : setDistribution twoCopies B twoP false false = some c)
    {a : SdpState.Args} (ha : SdpState.solverArgs B.env (SdpState.run B.env noSolver [c]) = some a) : (solverInput cols.length B a).Solves false (values twoInflated) 0 := by
  have hR : (inflated two_accepted two_wellFormed two_hasSources twoModel).Realises twoP := classical_realises two_accepted _ _ (EndToEnd.toClassical_realises two_accepted two_wellFormed twoModel two_generates)
  have hn : ∀ m, 0 ≤ (inflated two_accepted two_wellFormed two_hasSources twoModel).value m := fun m => classical_nonneg two_accepted _ _ m
  refine SdpEnd.solves twoInflated hV (fun m _ => hn m) noSolver [c] ?_ ha
  intro c' hc'
  rw [List.mem_singleton] at hc'
  subst hc'
  exact truthful_callTrue hV twoInflated (.distribution hR (by simp) hc)

/-- The first and the second NPA level of the problem with two copies (5 and 13 columns) and the same distribution meet the hypotheses of C75, and the larger program is satisfied by an assignment. -/
example : ∃ B₁ B₂ a₁ a₂, Compared twoCopies (freshChoice twoCopies) letters (specCols twoCopies (npaSpecs twoCopies.scenario.nParties 1 0)) (specCols twoCopies (npaSpecs twoCopies.scenario.nParties 2 0)) B₁ B₂ twoP
      false false [] noSolver noSolver a₁ a₂ ∧
    (specCols twoCopies (npaSpecs twoCopies.scenario.nParties 1 0)).length = 5 ∧ (specCols twoCopies (npaSpecs twoCopies.scenario.nParties 2 0)).length = 13 ∧
    ∃ v, (solverInput (specCols twoCopies (npaSpecs twoCopies.scenario.nParties 2 0)).length B₂ a₂).Solves false v 0 := by
  have hu := fresh_usual twoCopies
  have hc := freshChoice_computed twoCopies
  have hS : copiesOf twoCopies.scenario ≤ 254 := by decide +kernel
  have hnet : twoCopies.isNetwork = true := by decide +kernel
  obtain ⟨B₁, hV₁⟩ := npa_setup hu hc letters hS hnet 1 0
  obtain ⟨B₂, hV₂⟩ := npa_setup hu hc letters hS hnet 2 0
  obtain ⟨B₁', hB₁, c₁, h1, ok1, a₁, ha1, -⟩ := C68_distribution_never_excluded two_accepted two_wellFormed two_hasSources twoModel two_generates hu hc letters hS hnet 1 0 noSolver
  obtain ⟨B₂', hB₂, c₂, h2, ok2, a₂, ha2, -⟩ := C68_distribution_never_excluded two_accepted two_wellFormed two_hasSources twoModel two_generates hu hc letters hS hnet 2 0 noSolver
  obtain rfl := Option.some.inj (hV₁.built.symm.trans hB₁)
  obtain rfl := Option.some.inj (hV₂.built.symm.trans hB₂)
  refine ⟨B₁, B₂, a₁, a₂, ⟨hu, hV₁, hV₂, npa_mono (by decide), unit_npa 1 0, ?_, id, by simp, ⟨c₁, h1, ok1, ha1⟩, ⟨c₂, h2, ok2, ha2⟩⟩, by decide +kernel, by decide +kernel, _, two_satisfied hV₂ h2 ha2⟩
  rw [minEq_network hnet hV₁]
  simp

/-- The chain npa1 ≤ local1 ≤ local2 ≤ npa2 for this problem (it has one party). -/
example (name : Atom → String) : let S := fun specs => specCols twoCopies specs
    AtLeastAsStrong twoCopies (freshChoice twoCopies) name (S (Columns.localSpecs twoCopies.scenario.nParties [1] 0)) (S (npaSpecs twoCopies.scenario.nParties 1 0)) ∧
    AtLeastAsStrong twoCopies (freshChoice twoCopies) name (S (Columns.localSpecs twoCopies.scenario.nParties [2] 0)) (S (Columns.localSpecs twoCopies.scenario.nParties [1] 0)) ∧
    AtLeastAsStrong twoCopies (freshChoice twoCopies) name (S (npaSpecs twoCopies.scenario.nParties 2 0)) (S (Columns.localSpecs twoCopies.scenario.nParties [2] 0)) := by
  have hS : copiesOf twoCopies.scenario ≤ 254 := by decide +kernel
  have hnet : twoCopies.isNetwork = true := by decide +kernel
  have hp : twoCopies.scenario.nParties = 1 := by decide +kernel
  have h1 : ([1] : List Nat).length = twoCopies.scenario.nParties := hp.symm
  have h2 : ([2] : List Nat).length = twoCopies.scenario.nParties := hp.symm
  refine ⟨C75_npa_below_local (fresh_usual _) (freshChoice_computed _) name hS hnet h1 ?_ (by rw [hp]; decide) 0, C75_local_levels (fresh_usual _) (freshChoice_computed _) name hS hnet h1 h2 ?_ 0,
    C75_local_below_npa (fresh_usual _) (freshChoice_computed _) name hS hnet h2 (by decide) 0⟩
  · intro p h
    rw [hp] at h
    obtain rfl : p = 0 := by omega
    decide
  · intro p
    match p with
    | 0 => decide
    | _ + 1 => simp

/-- The chain physical1 ≤ physical2 (with at most 3 operators, then without a limit) ≤ local2 for this problem. -/
example (name : Atom → String) :
    AtLeastAsStrong twoCopies (freshChoice twoCopies) name (Physical.physicalCols twoCopies 0 [some 2]) (Physical.physicalCols twoCopies 3 [some 1]) ∧
    AtLeastAsStrong twoCopies (freshChoice twoCopies) name (specCols twoCopies (Columns.localSpecs twoCopies.scenario.nParties [2] 0)) (Physical.physicalCols twoCopies 0 [some 2]) := by
  have hS : copiesOf twoCopies.scenario ≤ 254 := by decide +kernel
  have hnet : twoCopies.isNetwork = true := by decide +kernel
  have hout := Physical.hasOutcomes two_accepted
  refine ⟨C75_physical_levels hout (fresh_usual _) (freshChoice_computed _) name hS hnet (.inl rfl) ?_, C75_physical_below_local hout (fresh_usual _) (freshChoice_computed _) name hS hnet
    (show ([2] : List Nat).length = twoCopies.scenario.nParties by decide +kernel) 0⟩
  intro p c hc
  match p with
  | 0 => exact ⟨1, rfl, by have : 2 = c := by simpa using hc
                           omega⟩
  | _ + 1 => simp at hc

/-- The operators of the two copies have the same moment; operators of different measurements do not. -/
example : momentOf twoCopies (freshChoice twoCopies) letters [1] = momentOf twoCopies (freshChoice twoCopies) letters [5] ∧
    momentOf twoCopies (freshChoice twoCopies) letters [1] ≠ momentOf twoCopies (freshChoice twoCopies) letters [3] := by
  decide +kernel

/-- The generating set of `signalCols` and single operators. -/
def widerCols : List (List Nat) := [[], [1], [3], [5], [6], [1, 5], [1, 6], [3, 5], [3, 6]]

theorem wider_setup : ∃ B c a, Setup instr widerCols (freshChoice instr) letters B ∧ setDistribution instr B signalling false false = some c ∧
    SdpState.Ok B.env noSolver [c] ∧ SdpState.solverArgs B.env (SdpState.run B.env noSolver [c]) = some a := by
  have hs : ((build instr widerCols (freshChoice instr) letters).bind fun B => (indexEqualities instr widerCols B.sym).bind fun eqs =>
      (setDistribution instr B signalling false false).bind fun c => (SdpState.solverArgs B.env (SdpState.run B.env noSolver [c])).map fun _ =>
        (eqs.all fun e => decide (e.1 :: e.2).Nodup) && (SdpState.call B.env noSolver (SdpState.init B.env) c).2.isNone) = some true := by decide +kernel
  obtain ⟨B, hB, h⟩ := Option.bind_eq_some_iff.1 hs
  obtain ⟨eqs, he, h⟩ := Option.bind_eq_some_iff.1 h
  obtain ⟨c, hc, h⟩ := Option.bind_eq_some_iff.1 h
  obtain ⟨a, ha, h⟩ := Option.map_eq_some_iff.1 h
  simp only [Bool.and_eq_true] at h
  obtain ⟨h1, hok⟩ := h
  refine ⟨B, c, a, ⟨colsOk_of (by decide +kernel) (by decide) (by decide +kernel), by decide +kernel, freshChoice_computed _, hB, equalitiesProper_of (by rw [he]; exact congrArg some h1)⟩,
    hc, ?_, ha⟩
  intro h1 d h2 e
  rcases h1 with _ | ⟨x, h1⟩
  · obtain ⟨rfl, _⟩ := List.cons.inj e
    exact Option.isNone_iff_eq_none.1 hok
  · simp at e

/-- The program with three columns has no solution: the vector (1, -1, -1) has a negative product with the moment matrix. -/
theorem signal_infeasible {B : Built} (hsym : B.sym = [1, 2, 3, 2, 2, 0, 3, 0, 3]) (hidx : B.index = [(0, [[0]]), (1, []), (2, [[1, 5]]), (3, [[3, 6]])]) :
    ¬ ∃ v, (solverInput 3 B ⟨[([], 0)], [(some [[0]], 0), (some [], 1), (some [[1, 5]], 1), (some [[3, 6]], 1), (none, 1)], [], [], []⟩).Solves false v 0 := by
  rintro ⟨v, h⟩
  have k0 := h.known (some [[0]], 0) (by simp [solverInput, realRow])
  have k1 := h.known (some [], 1) (by simp [solverInput, realRow])
  have k2 := h.known (some [[1, 5]], 1) (by simp [solverInput, realRow])
  have k3 := h.known (some [[3, 6]], 1) (by simp [solverInput, realRow])
  have hp := h.psd.2 (fun i => if i = 0 then 1 else -1)
  dsimp only at k0 k1 k2 k3
  unfold SdpSolver.quad SdpSolver.Input.momentMatrix solverInput masks at hp
  rw [hidx, hsym] at hp
  simp [Fin.sum_univ_three, k0, k1, k2, k3] at hp
  norm_num at hp

/-- A problem which is not a network and a distribution that it excludes: three columns suffice, and by C75 every program with more columns and the same normalisation equalities excludes it too; here one with nine. -/
example : ∃ B c a, Setup instr widerCols (freshChoice instr) letters B ∧ setDistribution instr B signalling false false = some c ∧
    SdpState.solverArgs B.env (SdpState.run B.env noSolver [c]) = some a ∧ ¬ ∃ v, (solverInput 9 B a).Solves false v 0 := by
  obtain ⟨B₂, c₂, a₂, hV₂, hc₂, hok₂, ha₂⟩ := wider_setup
  obtain ⟨B₁, c₁, a₁, hV₁, hc₁, hok₁, ha₁, hsym, hidx, e⟩ := signal_setup
  have hmin : B₁.env.minEq = [] := by
    obtain ⟨_, h⟩ := args_of ha₁
    rw [e] at h
    have h := congrArg SdpState.Args.equalities h
    exact List.map_eq_nil_iff.1 h.symm
  refine ⟨B₂, c₂, a₂, hV₂, hc₂, ha₂, C75_stays_infeasible (cols₁ := signalCols) (P := signalling) (shared₁ := false) (shared₂ := false) (l := []) (solver₁ := noSolver) (solver₂ := noSolver)
    ⟨fresh_usual _, hV₁, hV₂, by decide, by decide, by rw [hmin]; simp, id, by simp, ⟨c₁, hc₁, hok₁, ha₁⟩, ⟨c₂, hc₂, hok₂, ha₂⟩⟩ ?_⟩
  rw [e]
  exact signal_infeasible hsym hidx

end Verif.Hierarchy

import Verif.Mixture.ClosedWitness
import Verif.Hierarchy.Witness
/-!
For closed generating sets: a distribution which is not excluded without `shared_randomness` is not excluded with it.
-/
namespace Verif.Mixture
open Verif.Common Verif.Canon Verif.Scenario Verif.Moment Verif.SdpEnd Verif.SdpNames Verif.Hierarchy Verif.Generate Verif.Linear
open Verif.State (Dict Mon mem_keys)
open Verif.SdpState (Call Args SolverOut valuesOf)
open Verif.Columns (npaSpecs)

variable {I : EndToEnd.Input} {ch : Choice} {name : Atom → String} {cols : List (List Nat)} {B : Built}

/-- What satisfies the program without the option fulfils the requirements of the program with it. -/
theorem fulfils_of_plain (hch : UsualChoice ch I) (hV : Setup I cols ch name B) (hone : [] ∈ cols) (hcl : SubClosed I cols) {P : List Nat → Rat} {c : Call Mon} (hc : setDistribution I B P false false = some c)
    {l : List (Call Mon)} (hl : ∀ c ∈ l, Later c) {solver : Args → SolverOut} (hok : SdpState.Ok B.env solver (c :: l)) {a : Args}
    (ha : SdpState.solverArgs B.env (SdpState.run B.env solver (c :: l)) = some a) {v : Option Mon → ℝ} {r : ℝ} (hv : (solverInput cols.length B a).Solves false v r) : Fulfils I cols.length B P v r := by
  obtain ⟨w, hw, F⟩ := in_force hV hc solver
  have hS := run_constraints (E := B.env) solver c hl
  obtain ⟨_, e⟩ := args_of ha
  have hkn : ∀ m x, (SdpState.run B.env solver (c :: l)).known.get m = some x → v (some m) = ((x : Rat) : ℝ) := by
    intro m x hx
    have := hv.known
    rw [e] at this
    exact this (some m, (x : ℝ)) (List.mem_map.2 ⟨(some m, x), List.mem_append_left _ (List.mem_map.2 ⟨(m, x), mem_of_get hx, rfl⟩), rfl⟩)
  refine ⟨?_, ?_, ?_, ?_, fun a' => hv.psd⟩
  · intro m x hg hx
    refine hkn m x ?_
    rw [hS.known, F.known]
    refine short_known false ?_ (given_short hch hV hg) ((direct_iff hV hw m x).2 ⟨hg, hx⟩)
    rcases hg with ⟨q, _⟩ | rfl | ⟨rfl, hz⟩
    · exact atomics_moments hch hV hcl q
    · exact one_mem hV.columns hV.built hone
    · exact (zero_iff hch hV).2 hz
  · have h := hv.known (none, ((1 : Rat) : ℝ)) (by rw [e]; exact List.mem_map.2 ⟨(none, 1), by simp, rfl⟩)
    rw [show v none = ((1 : Rat) : ℝ) from h, Rat.cast_one]
  · intro m hm
    have ec : c = .setValues w false false := by
      unfold setDistribution at hc
      rw [hw] at hc
      exact (Option.some.inj hc).symm
    have hokk := ok_first hok
    rw [e] at hv
    rw [ec] at hokk
    rcases nonneg_in_force hch hV hw solver hokk hm with ⟨x, hx, h0⟩ | hlo
    · rw [← ec, ← hS.known] at hx
      rw [hkn m x hx]
      exact_mod_cast h0
    · rw [← ec, ← hS.lower] at hlo
      have := hv.ineq (realRow (SdpState.lowerRow (m, 0))) (List.mem_map.2 ⟨_, List.mem_append_left _ (List.mem_map.2 ⟨(m, 0), mem_of_get hlo, rfl⟩), rfl⟩)
      rwa [lower_row] at this
  · intro d hd
    exact hv.eq (realRow (SdpState.rowOf d)) (by rw [e]; exact List.mem_map.2 ⟨_, List.mem_map.2 ⟨d, hd, rfl⟩, rfl⟩)

/-- **C76, what is allowed without the option is allowed with it.** For a closed generating set containing the identity: if an assignment satisfies the program of a distribution, then `set_distribution` of the same
distribution with `shared_randomness=True` raises no exception, the arguments of the solver can be prepared whatever calls of `set_objective` and `solve` follow, and the assignment satisfies that program. -/
theorem C76_allowed_with_option (hch : UsualChoice ch I) (hV : Setup I cols ch name B) (hone : [] ∈ cols) (hcl : SubClosed I cols) {P : List Nat → Rat} {c : Call Mon} (hc : setDistribution I B P false false = some c)
    {l : List (Call Mon)} (hl : ∀ c ∈ l, Later c) {solver : Args → SolverOut} (hok : SdpState.Ok B.env solver (c :: l)) {a : Args}
    (ha : SdpState.solverArgs B.env (SdpState.run B.env solver (c :: l)) = some a) {v : Option Mon → ℝ} {r : ℝ} (hv : (solverInput cols.length B a).Solves false v r) :
    ∃ c', setDistribution I B P false true = some c' ∧ (∀ solver, SdpState.Ok B.env solver [c']) ∧ ∀ (solver : Args → SolverOut) (l : List (Call Mon)), (∀ c ∈ l, Later c) →
      ∃ a', SdpState.solverArgs B.env (SdpState.run B.env solver (c' :: l)) = some a' ∧ (solverInput cols.length B a').Solves false v r := by
  have hf := fulfils_of_plain hch hV hone hcl hc hl hok ha hv
  obtain ⟨w, hw, _⟩ := Option.map_eq_some_iff.1 (show Option.map _ _ = _ from hc)
  have hc' : setDistribution I B P false true = some (.setValues w false true) := by
    unfold setDistribution
    rw [hw]
    rfl
  refine ⟨_, hc', ok_of_fulfils hV hc' hf, fun solver l hl => ?_⟩
  obtain ⟨a', ha'⟩ := C76_closed_sets_solvable hch hV hone hcl hc' hl solver
  exact ⟨a', ha', solves_of_fulfils hV hc' hl ha' hf⟩

/-- The hypotheses are met by the second NPA level of the problem with two copies and the values of the model with random answers. -/
example : ∃ B c a v, Setup twoCopies (specCols twoCopies (npaSpecs twoCopies.scenario.nParties 2 0)) (freshChoice twoCopies) letters B ∧
    [] ∈ specCols twoCopies (npaSpecs twoCopies.scenario.nParties 2 0) ∧ SubClosed twoCopies (specCols twoCopies (npaSpecs twoCopies.scenario.nParties 2 0)) ∧
    setDistribution twoCopies B twoP false false = some c ∧ SdpState.Ok B.env noSolver [c] ∧ SdpState.solverArgs B.env (SdpState.run B.env noSolver [c]) = some a ∧
    (solverInput (specCols twoCopies (npaSpecs twoCopies.scenario.nParties 2 0)).length B a).Solves false v 0 := by
  have hu := fresh_usual twoCopies
  have hc := freshChoice_computed twoCopies
  have hS : copiesOf twoCopies.scenario ≤ 254 := by decide +kernel
  have hnet : twoCopies.isNetwork = true := by decide +kernel
  obtain ⟨B, hV⟩ := spec_setup hu hc letters hS hnet (specs := npaSpecs twoCopies.scenario.nParties 2 0) (by rw [Columns.count_npaSpecs])
  obtain ⟨B', hB', c, h1, ok1, a, ha, -⟩ := C68_distribution_never_excluded two_accepted two_wellFormed two_hasSources twoModel two_generates hu hc letters hS hnet 2 0 noSolver
  obtain rfl := Option.some.inj (hV.built.symm.trans hB')
  exact ⟨B, c, a, _, hV, unit_npa 2 0, npa_subClosed 2 0, h1, ok1, ha, two_satisfied hV h1 ha⟩

end Verif.Mixture

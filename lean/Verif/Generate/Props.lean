import Verif.Generate.Equalities
import Verif.Generate.Columns
import Verif.SdpEnd.ClassicalSound
/-!
C68: generating a relaxation succeeds.
-/
namespace Verif.Generate
open Verif.Common Verif.Canon Verif.Canon.Spec Verif.Scenario Verif.Components Verif.Moment Verif.MomentMatrix Verif.SymMM Verif.SdpRepr Verif.SdpEnd Verif.SdpNames Verif.Symmetry
open Verif.Columns (npaSpecs localSpecs count_npaSpecs count_localSpecs head_localSpecs head_cols)
open Verif.State (Dict Mon)
open Verif.EndToEnd (Input CausalModel WellFormed)
open Verif.SdpEnd (HasSources)

variable {I : Input} {ch : Choice}

/-- **C68, every generating set that the relabellings of the copies preserve.** For every problem, every such generating set and every state of the memoised representatives,
`generate_relaxation` returns (neither the assertion that indices and moments are in bijection fails nor is an exception raised when the normalisation equalities are made), provided the
parties about which there are normalisation equalities have at least two outcomes. -/
theorem C68_relaxation_generated (hch : UsualChoice ch I) (name : Atom → String) (hS : copiesOf I.scenario ≤ 254) {cols : List (List Nat)}
    (hc : ColsOk (nOps I) (notcomm I) (orthomat I) (allCommute I) cols) (hcl : ClosedUnder I cols) (ho : TwoOutcomes I) : ∃ B, build I cols ch name = some B :=
  build_succeeds hch name hS hc hcl ho

theorem specCols_ok {specs : List (List Nat)} (hs : specs.count [] ≤ 1) : ColsOk (nOps I) (notcomm I) (orthomat I) (allCommute I) (specCols I specs) :=
  Columns.C42_columns_suit_moment_matrix (S := I.scenario) (D := I.D) (q := I.anyNonclassical) commuting_none specs hs

/-- **C68, lists of parties.** The generating sets made from lists of products of parties (in which the empty product is given at most once). -/
theorem C68_products_of_parties (hch : UsualChoice ch I) (name : Atom → String) (hS : copiesOf I.scenario ≤ 254) (ho : TwoOutcomes I) (specs : List (List Nat))
    (hs : specs.count [] ≤ 1) : ∃ B, build I (specCols I specs) ch name = some B :=
  build_succeeds hch name hS (specCols_ok hs) (specCols_closed specs) ho

/-- **C68, NPA levels**: `generate_relaxation("npaN", max_monomial_length)`. -/
theorem C68_npa_level (hch : UsualChoice ch I) (name : Atom → String) (hS : copiesOf I.scenario ≤ 254) (ho : TwoOutcomes I) (level maxLen : Nat) :
    ∃ B, build I (specCols I (npaSpecs I.scenario.nParties level maxLen)) ch name = some B :=
  C68_products_of_parties hch name hS ho _ (by rw [count_npaSpecs])

/-- **C68, local levels**: `generate_relaxation("localN", max_monomial_length)`. -/
theorem C68_local_level (hch : UsualChoice ch I) (name : Atom → String) (hS : copiesOf I.scenario ≤ 254) (ho : TwoOutcomes I) (lengths : List Nat)
    (hl : lengths.length = I.scenario.nParties) (maxLen : Nat) :
    ∃ B, build I (specCols I (localSpecs I.scenario.nParties lengths maxLen)) ch name = some B :=
  C68_products_of_parties hch name hS ho _ (count_localSpecs hl)

/-- The identity is the first operator of an NPA level. -/
theorem unit_npa (level maxLen : Nat) : [] ∈ specCols I (npaSpecs I.scenario.nParties level maxLen) :=
  List.mem_of_mem_head? (Columns.C42_unit_first _)

/-- What the end-to-end theorems (C54, C56) assume about the program holds for every NPA level of every network. -/
theorem npa_setup (hch : UsualChoice ch I) (hch' : ch.Computed I) (name : Atom → String) (hS : copiesOf I.scenario ≤ 254) (hnet : I.isNetwork = true) (level maxLen : Nat) :
    ∃ B, Setup I (specCols I (npaSpecs I.scenario.nParties level maxLen)) ch name B := by
  obtain ⟨B, hB⟩ := C68_npa_level hch name hS (.inl hnet) level maxLen
  exact ⟨B, specCols_ok (by rw [count_npaSpecs]), hS, hch', hB, equalitiesProper_of_network hnet _ _⟩

/-- **C68, a distribution that the causal structure can produce.** From the problem to the solver, without any assumption about the program that was built: for every network, every
classical causal model of it and every NPA level, `generate_relaxation`, `set_distribution` and the preparation of the solver's arguments succeed, and the problem handed to the solver is
feasible (so no dual point is negative). -/
theorem C68_distribution_never_excluded {Λ : Type} [Fintype Λ] (hI : I.Accepted) (hD : WellFormed I.D) (hs : HasSources I.D) (M : CausalModel I.D I.outcomes I.priv Λ ℝ)
    {P : List Nat → Rat} (hP : M.Generates fun t => ((P t : Rat) : ℝ)) (hch : UsualChoice ch I) (hch' : ch.Computed I) (name : Atom → String) (hS : copiesOf I.scenario ≤ 254)
    (hnet : I.isNetwork = true) (level maxLen : Nat) (solver : SdpState.Args → SdpState.SolverOut) :
    ∃ B, build I (specCols I (npaSpecs I.scenario.nParties level maxLen)) ch name = some B ∧
      ∃ c, setDistribution I B P false false = some c ∧ SdpState.Ok B.env solver [c] ∧
        ∃ a, SdpState.solverArgs B.env (SdpState.run B.env solver [c]) = some a ∧
          ∀ fl : SdpSolver.Flags (Option Mon), fl.nonneg = false →
            (fl.feas = true → fl.Fresh (solverInput (specCols I (npaSpecs I.scenario.nParties level maxLen)).length B a)) →
            ∃ Q : SdpSolver.Prep (Option Mon) ℝ (specCols I (npaSpecs I.scenario.nParties level maxLen)).length,
              SdpSolver.prep fl (solverInput (specCols I (npaSpecs I.scenario.nParties level maxLen)).length B a) = some Q ∧
              (∃ x G, Q.Primal false x G ∧ Q.primalValue x = 0) ∧
              ∀ (Z : SdpSolver.Mat (specCols I (npaSpecs I.scenario.nParties level maxLen)).length ℝ) (mi me : Nat → ℝ), Q.Dual false Z mi me → 0 ≤ Q.dualValue fl.feas Z mi me := by
  obtain ⟨B, hV⟩ := npa_setup hch hch' name hS hnet level maxLen
  exact ⟨B, hV.built, C54_distribution_never_excluded hI hD hs M hP hV (unit_npa level maxLen) solver⟩

end Verif.Generate

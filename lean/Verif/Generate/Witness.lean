import Verif.Generate.Props
import Verif.SdpNames.Witness
/-!
The hypotheses of C68 are met, and generating sets and problems that do not meet them for which `generate_relaxation` raises.
-/
namespace Verif.Generate
open Verif.Common Verif.Canon Verif.Scenario Verif.Moment Verif.SymMM Verif.SdpRepr Verif.SdpEnd Verif.SdpNames
open Verif.State (Dict Mon)
open Verif.EndToEnd (Input CausalModel WellFormed)
open Verif.Columns (npaSpecs localSpecs)
open Verif.EndToEnd (instr)
open Verif.Search (coin coin_accepted)

/-- One party with two measurements of two outcomes, two copies of its source. -/
def twoCopies : Input where
  D := { names := [1], dag := [(10, [1])], nonclassicalLatents := [], classicalLatents := [], classicalSources := [] }
  outcomes := [2]
  priv := [2]
  levels := [2]
  allOutcomes := false

/-- The operators of the first copy for both measurements, and that of the second copy for the first measurement only. -/
def lopsided : List (List Nat) := [[], [1], [3], [5]]

/-- **C68 is false for arbitrary generating sets**: the generating set 1, A¹₀, A¹₁, A²₀ consists of distinct operators in canonical form, but `generate_relaxation` raises: the two copies
of A₀ have the same representative, and as the generating set is not preserved by exchanging the copies they keep different indices. -/
theorem C68_false_for_lopsided_columns :
    ColsOk (nOps twoCopies) (notcomm twoCopies) (orthomat twoCopies) (allCommute twoCopies) lopsided ∧ copiesOf twoCopies.scenario ≤ 254 ∧ TwoOutcomes twoCopies ∧
      UsualChoice (freshChoice twoCopies) twoCopies ∧ build twoCopies lopsided (freshChoice twoCopies) letters = none :=
  ⟨colsOk_of (by decide +kernel) (by decide) (by decide +kernel), by decide +kernel, .inl (by decide +kernel), fresh_usual _, by decide +kernel⟩

/-- Two parties with a common source, the first with one outcome, which the second one knows. -/
def oneOutcome : Input where
  D := { names := [1, 2], dag := [(10, [1, 2]), (1, [2])], nonclassicalLatents := [], classicalLatents := [], classicalSources := [] }
  outcomes := [1, 2]
  priv := [1, 1]
  levels := [1]
  allOutcomes := false

/-- **C68 is false for parties with children and a single outcome**: the first NPA level cannot be built. -/
theorem C68_false_for_one_outcome : copiesOf oneOutcome.scenario ≤ 254 ∧ UsualChoice (freshChoice oneOutcome) oneOutcome ∧
    build oneOutcome (specCols oneOutcome (npaSpecs oneOutcome.scenario.nParties 1 0)) (freshChoice oneOutcome) letters = none :=
  ⟨by decide +kernel, fresh_usual _, by decide +kernel⟩

/-- The hypotheses of C68 are met: two copies, the second NPA level (in which the operators of a copy do not commute). -/
example : copiesOf twoCopies.scenario ≤ 254 ∧ TwoOutcomes twoCopies ∧ UsualChoice (freshChoice twoCopies) twoCopies ∧ twoCopies.scenario.nParties = 1 ∧
    (specCols twoCopies (npaSpecs 1 2 0)).length = 13 ∧ ∃ B, build twoCopies (specCols twoCopies (npaSpecs 1 2 0)) (freshChoice twoCopies) letters = some B :=
  ⟨by decide +kernel, .inl (by decide +kernel), fresh_usual _, by decide +kernel, by decide +kernel,
    C68_npa_level (fresh_usual twoCopies) letters (by decide +kernel) (.inl (by decide +kernel)) 2 0⟩

/-- A problem which is not a network. -/
example : TwoOutcomes instr ∧ ¬ instr.isNetwork = true ∧ copiesOf instr.scenario ≤ 254 ∧ instr.scenario.nParties = 2 ∧
    ∃ B, build instr (specCols instr (localSpecs 2 [1, 1] 0)) (freshChoice instr) letters = some B := by
  have h : TwoOutcomes instr := .inr (by decide +kernel)
  exact ⟨h, by decide +kernel, by decide +kernel, by decide +kernel, C68_local_level (fresh_usual instr) letters (by decide +kernel) h [1, 1] (by decide +kernel) 0⟩

/-- The hypotheses of `C68_distribution_never_excluded` are met by a biased coin. -/
example (solver : SdpState.Args → SdpState.SolverOut) : ∃ B, build coin (specCols coin (npaSpecs coin.scenario.nParties 2 0)) (freshChoice coin) letters = some B ∧
    ∃ c, setDistribution coin B (SdpSearch.coinFamily (1 / 4)) false false = some c ∧ SdpState.Ok B.env solver [c] := by
  obtain ⟨B, hB, c, h1, h2, -⟩ := C68_distribution_never_excluded coin_accepted SdpSearch.coin_wellFormed SdpSearch.coin_hasSources
    (SdpSearch.coinModel (1 / 4) (by norm_num) (by norm_num)) (SdpSearch.coin_generates _ _ _) (fresh_usual coin) (freshChoice_computed _) letters (by decide +kernel) (by decide +kernel) 2 0 solver
  exact ⟨B, hB, c, h1, h2⟩

end Verif.Generate

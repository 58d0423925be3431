import Verif.QuantumNet.Born
import Verif.Theory.Props
import Verif.Theory.CertProps
import Verif.SdpEnd.QuantumSound
/-!
C56, C57, C58, C59 for quantum networks: sources that prepare density matrices, parties that perform local projective measurements, the Born rule.
-/
set_option linter.unusedSectionVars false

namespace Verif.QuantumNet
open Verif.Common Verif.Scenario Verif.Orbits Verif.Components Verif.Moment Verif.State Verif.CollinsGisin Verif.Theory
open Verif.EndToEnd (Input valF NoTiny dictValF FeasibleIn toSolver)
open Verif.LpSolver (Flags Prep prepare Returned certAt slackVec dense)
open Verif.EndToEnd.ClassicalModel (Capacity)
open Verif.SdpEnd (Built Choice Setup BoundsSafe InflatedModel solverInput setDistribution)

variable {I : Input} {A : Type} [Fintype A] [DecidableEq A]

/-- **C58, quantum networks are never excluded by the linear program.** For every quantum network (density matrices for the sources, local projective measurements of any dimension) whose
distribution is `P`, `set_distribution(P)` is accepted, and the problem which is then solved has a feasible point. -/
theorem C58_quantum_network_never_excluded (hI : I.Accepted) (N : QuantumNetwork I A) {P : List Nat → Rat} (hP : N.Generates fun t => ((P t : Rat) : ℂ))
    (hcap : ∀ v ∈ I.columns, Capacity I.scenario (flatnonzero v)) {name : Atom → String} {E : Env Mon} (hE : I.lpEnv name = some E) (solver : Args → SolverOut) (shared : Bool) :
    ∃ c, I.setDistribution P false shared = some c ∧ ∀ a, solverArgs E (run E solver [c]) = some a → ∃ x : Nat → ℝ, FeasibleIn a x ∧ ∀ i, i < I.columns.length → 0 ≤ x i := by
  have hg := generates_of_network N hI hP
  obtain ⟨vals, hc, _⟩ := C58_distribution_accepted hI (ofQuantum (inflate N hI)) hg false shared
  refine ⟨_, hc, fun a ha => ?_⟩
  obtain ⟨x, h1, h2, _⟩ := C58_compatible_is_feasible hI (ofQuantum (inflate N hI)) hcap hE solver _ (by
    intro c hm
    rw [List.mem_singleton] at hm
    subst hm
    exact .distribution hg (by simp) hc) ha
  exact ⟨x, h1, fun i hi => (h2 i hi).2⟩

/-- **C59, certificates exclude quantum networks.** Solve for the distribution `Q` and take the certificate. It is non-negative at the probabilities of the inflation of every quantum
network: a certificate that is negative excludes also all quantum networks. -/
theorem C59_quantum_network_certificate (hI : I.Accepted) (N : QuantumNetwork I A)
    (hcap : ∀ v ∈ I.columns, Capacity I.scenario (flatnonzero v)) {name : Atom → String} {E : Env Mon} (hE : I.lpEnv name = some E) (solver : Args → SolverOut)
    (h : List (Call Mon)) {Q : List Nat → Rat} {shared : Bool} {c : Call Mon} (hc : I.setDistribution Q false shared = some c)
    {a : Args} (ha : solverArgs E (run E solver (h ++ [c])) = some a) (hl : a.lower = []) (hu : a.upper = []) (ho : a.objective = [])
    {f : Flags} {p : Prep ℝ} (hp : prepare f (toSolver I.columns.length a) = some p)
    {y : List ℝ} (hy : Returned f (toSolver I.columns.length a) (fun j => (if f.relaxed then slackVec p.con.cols else dense p.objective : List ℝ).getD j 0) y) :
    0 ≤ certAt I.columns.length f p y fun i => (ofQuantum (inflate N hI)).event (flatnonzero (I.columns.getD i [])) :=
  C59_certificate_is_valid_inequality hI (ofQuantum (inflate N hI)) hcap hE solver h hc ha hl hu ho hp hy

/-- **C56, quantum networks.** For every quantum network with distribution `P` (density matrices, projective measurements, the Born rule), every causal structure, inflation level and
generating set containing the unit, `set_distribution(P)` raises nothing and the semidefinite program then solved is feasible. What is missing: `BoundsSafe` (see C46). -/
theorem C56_quantum_network_never_excluded_partial (hI : I.Accepted) (N : QuantumNetwork I A) {P : List Nat → Rat} (hP : N.Generates fun t => ((P t : Rat) : ℂ))
    {cols : List (List Nat)} {ch : Choice} {name : Atom → String} {B : Built} (hV : Setup I cols ch name B) (hone : [] ∈ cols) (hs : BoundsSafe I B)
    (solver : SdpState.Args → SdpState.SolverOut) :
    ∃ c, setDistribution I B P false false = some c ∧ SdpState.Ok B.env solver [c] ∧
      ∃ a, SdpState.solverArgs B.env (SdpState.run B.env solver [c]) = some a ∧
        ∀ fl : SdpSolver.Flags (Option Mon), fl.nonneg = false → (fl.feas = true → fl.Fresh (solverInput cols.length B a)) →
          ∃ Q : SdpSolver.Prep (Option Mon) ℝ cols.length, SdpSolver.prep fl (solverInput cols.length B a) = some Q ∧
            (∃ x G, Q.Primal false x G ∧ Q.primalValue x = 0) ∧ ∀ (Z : SdpSolver.Mat cols.length ℝ) (mi me : Nat → ℝ), Q.Dual false Z mi me → 0 ≤ Q.dualValue fl.feas Z mi me :=
  SdpEnd.C56_distribution_never_excluded_partial hV hone (inflate N hI) (realises_of_generates _ hI (generates_of_network N hI hP)) hs solver

/-- **C56, quantum networks without inflation**, or more generally when no source is copied: no assumption on the bounds. -/
theorem C56_quantum_network_uninflated_never_excluded (hI : I.Accepted) (N : QuantumNetwork I A) {P : List Nat → Rat} (hP : N.Generates fun t => ((P t : Rat) : ℂ))
    (hl : ∀ s < I.scenario.nSources, I.scenario.level s ≤ 1)
    {cols : List (List Nat)} {ch : Choice} {name : Atom → String} {B : Built} (hV : Setup I cols ch name B) (hone : [] ∈ cols) (solver : SdpState.Args → SdpState.SolverOut) :
    ∃ c, setDistribution I B P false false = some c ∧ SdpState.Ok B.env solver [c] ∧
      ∃ a, SdpState.solverArgs B.env (SdpState.run B.env solver [c]) = some a ∧
        ∀ fl : SdpSolver.Flags (Option Mon), fl.nonneg = false → (fl.feas = true → fl.Fresh (solverInput cols.length B a)) →
          ∃ Q : SdpSolver.Prep (Option Mon) ℝ cols.length, SdpSolver.prep fl (solverInput cols.length B a) = some Q ∧
            (∃ x G, Q.Primal false x G ∧ Q.primalValue x = 0) ∧ ∀ (Z : SdpSolver.Mat cols.length ℝ) (mi me : Nat → ℝ), Q.Dual false Z mi me → 0 ≤ Q.dualValue fl.feas Z mi me :=
  SdpEnd.C56_uninflated_never_excluded_partial hl hV hone (inflate N hI) (realises_of_generates _ hI (generates_of_network N hI hP)) solver

/-- **C57, certificates of the semidefinite program exclude quantum networks.** If the certificate reported for the distribution `P`, evaluated on the values of `P`, is below `-tol` times
the sum of their absolute values, then no quantum network of any dimension has the distribution `P`. What is missing: `BoundsSafe` (see C46). -/
theorem C57_negative_certificate_excludes_quantum_networks_partial (hI : I.Accepted)
    {cols : List (List Nat)} {ch : Choice} {name : Atom → String} {B : Built} (hV : Setup I cols ch name B) (hs : BoundsSafe I B)
    {solver : SdpState.Args → SdpState.SolverOut} {P : List Nat → Rat} {c : SdpState.Call Mon} {shared : Bool} {a : SdpState.Args}
    (hc : setDistribution I B P false shared = some c) (hok : SdpState.Ok B.env solver [c]) (ha : SdpState.solverArgs B.env (SdpState.run B.env solver [c]) = some a)
    {fl : SdpSolver.Flags (Option Mon)} (hn : fl.nonneg = false) (hfr : fl.feas = true → fl.Fresh (solverInput cols.length B a))
    {T : SdpSolver.Prep (Option Mon) ℝ cols.length} (hT : SdpSolver.prep fl (solverInput cols.length B a) = some T)
    {Z : SdpSolver.Mat cols.length ℝ} {mi me : Nat → ℝ} (hd : T.Dual false Z mi me) {tol : ℝ} (htol : 0 ≤ tol)
    (hneg : SdpSolver.certValue (T.certificate fl.feas (fun c => decide (|c| ≤ tol)) Z mi me) (fun y => (((Dict.get a.known y).getD 0 : Rat) : ℝ)) <
      -(tol * (a.known.map fun t => |(((Dict.get a.known t.1).getD 0 : Rat) : ℝ)|).sum)) :
    ∀ (A : Type) [Fintype A] [DecidableEq A] (N : QuantumNetwork I A), ¬ N.Generates fun t => ((P t : Rat) : ℂ) := by
  intro A _ _ N hP
  exact SdpEnd.C57_negative_certificate_excludes_partial hV hs hc hok ha hn hfr hT hd htol hneg _ (inflate N hI)
    (realises_of_generates _ hI (generates_of_network N hI hP))

end Verif.QuantumNet

import Verif.SdpEnd.ClassicalProps
import Verif.SdpEnd.QuantumSound
/-!
C54 and C55 for the graph the user draws: the semidefinite program accepts every distribution that a classical causal model of the graph generates, and its certificates are
inequalities satisfied by all of them.
-/
namespace Verif.SdpEnd
open Verif.Common Verif.Canon Verif.Canon.Spec Verif.Scenario Verif.Components Verif.Moment Verif.MomentMatrix Verif.Normalization
open Verif.State (Dict Mon)
open Verif.EndToEnd

/-- Every party receives something from a source, directly or through an intermediate latent (asserted by the code, InflationProblem.py 268-270). -/
def HasSources (D : DagInput) : Prop :=
  ∀ v ∈ D.names, ∃ u, u ∉ D.names ∧ u ∉ D.nonclassicalLatents ++ D.classicalLatents ∧ (Edge D u v ∨ ∃ w, w ∉ D.names ∧ Edge D u w ∧ Edge D w v)

variable {I : Input} {Λ : Type} [Fintype Λ]

theorem sourced (hD : WellFormed I.D) (h : HasSources I.D) : Sourced I.scenario := by
  intro p hp
  have hp : p < I.D.names.length := hp
  obtain ⟨u, h1, h2, h3⟩ := h _ (EndToEnd.getD_mem hp)
  have hu : u ∈ I.D.sources := by
    refine ((C52_sources_table hD).2 u).2 ⟨?_, h1, h2⟩
    rcases h3 with ⟨cs, hcs, _⟩ | ⟨_, _, ⟨cs, hcs, _⟩, _⟩ <;> exact ⟨cs, hcs⟩
  have hi : I.D.sources.idxOf u < I.D.sources.length := List.idxOf_lt_length_of_mem hu
  refine ⟨I.D.sources.idxOf u, hi, (C52_hypergraph_table hD hp).2 ?_⟩
  rw [List.getD_eq_getElem _ _ hi, List.getElem_idxOf]
  rcases h3 with h3 | ⟨w, q1, q2, q3⟩
  · exact .inl h3
  · exact .inr ⟨w, q1, q2, q3⟩

/-- The operators of the inflated network and their state for a causal model of the graph: the inflated network with independent copies of the sources. -/
noncomputable def inflated (hI : I.Accepted) (hD : WellFormed I.D) (hs : HasSources I.D) (M : CausalModel I.D I.outcomes I.priv Λ ℝ) : InflatedModel I (Observable I Λ) :=
  classical hI (sourced hD hs) (M.toClassical hD)

section
variable {cols : List (List Nat)} {ch : Choice} {name : Atom → String} {B : Built} (hI : I.Accepted) (hD : WellFormed I.D) (hs : HasSources I.D)
  (M : CausalModel I.D I.outcomes I.priv Λ ℝ) {solver : SdpState.Args → SdpState.SolverOut} {h : List (SdpState.Call Mon)} {a : SdpState.Args}

/-- **C54, the primal problem**, after any truthful history: the problem built for MOSEK has a feasible point at which its objective is the value of the user's objective in the
causal model. -/
theorem C54_primal_is_feasible (U : Used I cols ch name B (inflated hI hD hs M) solver h a) (hr : ∀ c ∈ h, c ≠ .reset .values) {fl : SdpSolver.Flags (Option Mon)}
    (hf : fl.feas = false) (hn : fl.nonneg = false) {P : SdpSolver.Prep (Option Mon) ℝ cols.length} (hP : SdpSolver.prep fl (solverInput cols.length B a) = some P) :
    ∃ x G, P.Primal false x G ∧ P.primalValue x = dictR (SdpState.run B.env solver h).objective (inflated hI hD hs M).value :=
  C56_primal_is_feasible_partial U (fun m _ => classical_nonneg hI _ _ m) hr hf hn hP

/-- **C54, the dual problem**: every feasible point of the dual bounds the user's objective in the causal model. -/
theorem C54_dual_is_bounded (U : Used I cols ch name B (inflated hI hD hs M) solver h a) (hr : ∀ c ∈ h, c ≠ .reset .values) {fl : SdpSolver.Flags (Option Mon)}
    (hf : fl.feas = false) (hn : fl.nonneg = false) {P : SdpSolver.Prep (Option Mon) ℝ cols.length} (hP : SdpSolver.prep fl (solverInput cols.length B a) = some P)
    {Z : SdpSolver.Mat cols.length ℝ} {mi me : Nat → ℝ} (hd : P.Dual false Z mi me) :
    dictR (SdpState.run B.env solver h).objective (inflated hI hD hs M).value ≤ P.dualValue false Z mi me :=
  C56_dual_is_bounded_partial U (fun m _ => classical_nonneg hI _ _ m) hr hf hn hP hd

/-- **C54, feasibility as optimisation**: the largest `λ` with `Γ - λ·1 ⪰ 0` is not negative. -/
theorem C54_feasibility_not_negative (U : Used I cols ch name B (inflated hI hD hs M) solver h a) {fl : SdpSolver.Flags (Option Mon)} (hf : fl.feas = true) (hn : fl.nonneg = false)
    (hfr : fl.Fresh (solverInput cols.length B a)) {P : SdpSolver.Prep (Option Mon) ℝ cols.length} (hP : SdpSolver.prep fl (solverInput cols.length B a) = some P) :
    (∃ x G, P.Primal false x G ∧ P.primalValue x = 0) ∧
      ∀ (Z : SdpSolver.Mat cols.length ℝ) (mi me : Nat → ℝ), P.Dual false Z mi me → 0 ≤ P.dualValue true Z mi me :=
  C56_feasibility_not_negative_partial U (fun m _ => classical_nonneg hI _ _ m) hf hn hfr hP

/-- **C54, no exceptions**: a careful use of the program that only tells it what is true of the causal model raises no exception, and the arguments for the solver can be
prepared. -/
theorem C54_no_exception (hV : Setup I cols ch name B) (hone : [] ∈ cols) (solver : SdpState.Args → SdpState.SolverOut) (h : List (SdpState.Call Mon))
    (ht : ∀ c ∈ h, Truthful I B (inflated hI hD hs M) c) (hc : ∀ c ∈ h, Careful B.env.moments c) :
    SdpState.Ok B.env solver h ∧ ∃ a, SdpState.solverArgs B.env (SdpState.run B.env solver h) = some a :=
  C56_no_exception_partial hV hone _ (fun m _ => classical_nonneg hI _ _ m) solver h ht hc

/-- **C55, certificates** of an infeasible problem (solved without objective) are inequalities that hold at the moments of every causal model. -/
theorem C55_certificate_is_valid (U : Asked I cols ch name B (inflated hI hD hs M) solver h a) (ho : ∀ t ∈ a.objective, t.2 = 0) {fl : SdpSolver.Flags (Option Mon)}
    (hf : fl.feas = false) (hn : fl.nonneg = false) {P : SdpSolver.Prep (Option Mon) ℝ cols.length} (hP : SdpSolver.prep fl (solverInput cols.length B a) = some P)
    {Z : SdpSolver.Mat cols.length ℝ} {mi me : Nat → ℝ} (hd : P.Dual false Z mi me) : 0 ≤ P.certAt false Z mi me (values (inflated hI hD hs M)) :=
  C57_certificate_is_valid_partial U (fun m _ => classical_nonneg hI _ _ m) ho hf hn hP hd

/-- **C55, certificates of feasibility problems solved as optimisations.** -/
theorem C55_feasibility_certificate_is_valid (U : Asked I cols ch name B (inflated hI hD hs M) solver h a) {fl : SdpSolver.Flags (Option Mon)} (hf : fl.feas = true)
    (hfr : fl.Fresh (solverInput cols.length B a)) {P : SdpSolver.Prep (Option Mon) ℝ cols.length} (hP : SdpSolver.prep fl (solverInput cols.length B a) = some P)
    {Z : SdpSolver.Mat cols.length ℝ} {mi me : Nat → ℝ} (hd : P.Dual false Z mi me) : 0 ≤ P.certAt true Z mi me (values (inflated hI hD hs M)) :=
  C57_feasibility_certificate_is_valid_partial U (fun m _ => classical_nonneg hI _ _ m) hf hfr hP hd

end

/-- All moments of a classical model are at most 1. -/
theorem classical_le_one (hI : I.Accepted) (hs : Sourced I.scenario) (M : ClassicalModel I.scenario I.observed Λ ℝ) (m : Mon) : (classical hI hs M).value m ≤ 1 := by
  have hv : ∀ a : Atom, ∃ x : ℝ, (0 ≤ x ∧ x ≤ 1) ∧ (classical hI hs M).val a = ((x : ℝ) : ℂ) := by
    intro a
    by_cases hr : InRange I a
    · rcases word_cases hr with h | ⟨e, rfl⟩
      · refine ⟨0, ⟨le_refl _, zero_le_one⟩, ?_⟩
        have := op_zero (outcomes_one hI) (Λ := Λ) h
        unfold InflatedModel.val
        rw [if_pos hr]
        show state M (op (operatorAt (outcomes_one hI) Λ) a) = _
        rw [this, map_zero]
        simp
      · refine ⟨_, ?_, classical_val hI hs M e⟩
        split
        · exact ⟨M.event_nonneg _, M.event_le_one hI.ok _⟩
        · exact ⟨le_refl _, zero_le_one⟩
    · exact ⟨0, ⟨le_refl _, zero_le_one⟩, by unfold InflatedModel.val; rw [if_neg hr]; simp⟩
  have hm : ∃ x : ℝ, (0 ≤ x ∧ x ≤ 1) ∧ (classical hI hs M).moment m = ((x : ℝ) : ℂ) := by
    unfold InflatedModel.moment
    induction m with
    | nil => exact ⟨1, ⟨zero_le_one, le_refl _⟩, by simp⟩
    | cons a m ih =>
      obtain ⟨x, hx, e⟩ := ih
      obtain ⟨y, hy, e'⟩ := hv a
      exact ⟨y * x, ⟨mul_nonneg hy.1 hx.1, mul_le_one₀ hy.2 hx.1 hx.2⟩, by rw [List.map_cons, List.prod_cons, e, e', Complex.ofReal_mul]⟩
  obtain ⟨x, hx, e⟩ := hm
  unfold InflatedModel.value
  rw [e, Complex.ofReal_re]
  exact hx.2

/-! ## One distribution -/

/-- **C54 for the graph the user draws.** If a classical causal model of the graph generates the distribution `P`, then for every inflation and every generating set that contains
the unit, `set_distribution(P)` raises no exception, the arguments of the solver can be prepared and preprocessed, and the program then solved is feasible: the primal problem has a
feasible point of value 0, and the value of the dual problem is never negative, whether feasibility is solved as an optimisation or not. -/
theorem C54_distribution_never_excluded (hI : I.Accepted) (hD : WellFormed I.D) (hs : HasSources I.D) (M : CausalModel I.D I.outcomes I.priv Λ ℝ) {P : List Nat → Rat}
    (hP : M.Generates fun t => ((P t : Rat) : ℝ)) {cols : List (List Nat)} {ch : Choice} {name : Atom → String} {B : Built} (hV : Setup I cols ch name B) (hone : [] ∈ cols)
    (solver : SdpState.Args → SdpState.SolverOut) :
    ∃ c, setDistribution I B P false false = some c ∧ SdpState.Ok B.env solver [c] ∧
      ∃ a, SdpState.solverArgs B.env (SdpState.run B.env solver [c]) = some a ∧
        ∀ fl : SdpSolver.Flags (Option Mon), fl.nonneg = false → (fl.feas = true → fl.Fresh (solverInput cols.length B a)) →
          ∃ Q : SdpSolver.Prep (Option Mon) ℝ cols.length, SdpSolver.prep fl (solverInput cols.length B a) = some Q ∧
            (∃ x G, Q.Primal false x G ∧ Q.primalValue x = 0) ∧ ∀ (Z : SdpSolver.Mat cols.length ℝ) (mi me : Nat → ℝ), Q.Dual false Z mi me → 0 ≤ Q.dualValue fl.feas Z mi me := by
  have hR : (inflated hI hD hs M).Realises P := classical_realises hI _ _ (toClassical_realises hI hD M hP)
  exact never_excluded hV hone (inflated hI hD hs M) hR (fun m _ => classical_nonneg hI _ _ m) solver

/-- **C55, certificates on distributions.** Solve the problem for any distribution `Q`. The reported certificate (entries of absolute value at most `tol` deleted), evaluated on the
values that `set_distribution(P)` records for any distribution `P` generated by a causal model of the graph, is not below `-tol` times the number of known moments. -/
theorem C55_certificate_on_distribution (hI : I.Accepted) (hD : WellFormed I.D) (hs : HasSources I.D) (M : CausalModel I.D I.outcomes I.priv Λ ℝ) {P : List Nat → Rat}
    (hP : M.Generates fun t => ((P t : Rat) : ℝ)) {cols : List (List Nat)} {ch : Choice} {name : Atom → String} {B : Built} (hV : Setup I cols ch name B)
    {solver solver' : SdpState.Args → SdpState.SolverOut} {Q : List Nat → Rat} {c c' : SdpState.Call Mon} {shared shared' : Bool} {a a' : SdpState.Args}
    (hc : setDistribution I B Q false shared = some c) (hok : SdpState.Ok B.env solver [c]) (ha : SdpState.solverArgs B.env (SdpState.run B.env solver [c]) = some a)
    (hc' : setDistribution I B P false shared' = some c') (ha' : SdpState.solverArgs B.env (SdpState.run B.env solver' [c']) = some a')
    (hkeys : ∀ t ∈ a.known, t.1 ∈ a'.known.keys)
    {fl : SdpSolver.Flags (Option Mon)} (hn : fl.nonneg = false) (hfr : fl.feas = true → fl.Fresh (solverInput cols.length B a))
    {T : SdpSolver.Prep (Option Mon) ℝ cols.length} (hT : SdpSolver.prep fl (solverInput cols.length B a) = some T)
    {Z : SdpSolver.Mat cols.length ℝ} {mi me : Nat → ℝ} (hd : T.Dual false Z mi me) {tol : ℝ} (htol : 0 ≤ tol) :
    -(tol * a.known.length) ≤ SdpSolver.certValue (T.certificate fl.feas (fun c => decide (|c| ≤ tol)) Z mi me) (fun y => (((Dict.get a'.known y).getD 0 : Rat) : ℝ)) := by
  have hR : (inflated hI hD hs M).Realises P := classical_realises hI _ _ (toClassical_realises hI hD M hP)
  have h := certificate_on_distribution (inflated hI hD hs M) hR hV (fun m _ => classical_nonneg hI _ _ m) hc hok ha hc' ha' hkeys hn hfr hT hd htol
  have hv := known_of_model (inflated hI hD hs M) hR hV (fun m _ => classical_nonneg hI _ _ m) hc' ha'
  have hsum : (a.known.map fun t => |(((Dict.get a'.known t.1).getD 0 : Rat) : ℝ)|).sum ≤ a.known.length := by
    have : ∀ x ∈ a.known.map fun t => |(((Dict.get a'.known t.1).getD 0 : Rat) : ℝ)|, x ≤ 1 := by
      intro x hx
      obtain ⟨t, ht, rfl⟩ := List.mem_map.1 hx
      rw [hv t.1 (hkeys t ht)]
      rcases t.1 with _ | m
      · simp [values]
      · show |(inflated hI hD hs M).value m| ≤ 1
        rw [abs_of_nonneg (show 0 ≤ (inflated hI hD hs M).value m from classical_nonneg hI _ _ m)]
        exact classical_le_one hI _ _ m
    have h2 := List.sum_le_card_nsmul _ _ this
    simpa using h2
  have h4 := mul_le_mul_of_nonneg_left hsum htol
  linarith

/-- **C55, certificates exclude.** If the certificate reported for the distribution `P`, evaluated on the values of `P`, is below `-tol` times the number of known moments, then no
classical causal model of the graph, with any finite alphabets, generates `P`. -/
theorem C55_negative_certificate_excludes (hI : I.Accepted) (hD : WellFormed I.D) (hs : HasSources I.D) {P : List Nat → Rat}
    {cols : List (List Nat)} {ch : Choice} {name : Atom → String} {B : Built} (hV : Setup I cols ch name B) {solver : SdpState.Args → SdpState.SolverOut}
    {c : SdpState.Call Mon} {shared : Bool} {a : SdpState.Args}
    (hc : setDistribution I B P false shared = some c) (hok : SdpState.Ok B.env solver [c]) (ha : SdpState.solverArgs B.env (SdpState.run B.env solver [c]) = some a)
    {fl : SdpSolver.Flags (Option Mon)} (hn : fl.nonneg = false) (hfr : fl.feas = true → fl.Fresh (solverInput cols.length B a))
    {T : SdpSolver.Prep (Option Mon) ℝ cols.length} (hT : SdpSolver.prep fl (solverInput cols.length B a) = some T)
    {Z : SdpSolver.Mat cols.length ℝ} {mi me : Nat → ℝ} (hd : T.Dual false Z mi me) {tol : ℝ} (htol : 0 ≤ tol)
    (hneg : SdpSolver.certValue (T.certificate fl.feas (fun c => decide (|c| ≤ tol)) Z mi me) (fun y => (((Dict.get a.known y).getD 0 : Rat) : ℝ)) < -(tol * a.known.length)) :
    ∀ (Λ : Type) [Fintype Λ] (M : CausalModel I.D I.outcomes I.priv Λ ℝ), ¬ M.Generates fun t => ((P t : Rat) : ℝ) := by
  intro Λ _ M hP
  exact absurd hneg (not_lt.2 (C55_certificate_on_distribution hI hD hs M hP hV hc hok ha hc ha (fun t ht => List.mem_map.2 ⟨t, ht, rfl⟩) hn hfr hT hd htol))

end Verif.SdpEnd

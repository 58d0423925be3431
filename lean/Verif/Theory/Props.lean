import Verif.Theory.Known
import Verif.EndToEnd.Props
/-!
C58: what a physical theory (classical, quantum or beyond) gives to a network is never rejected by the linear program of a nonfanout inflation.
-/
namespace Verif.Theory
open Verif.Common Verif.Scenario Verif.Orbits Verif.Components Verif.Moment Verif.State Verif.CollinsGisin
open Verif.EndToEnd (Input valF lpEnv_some CallTrue NoTiny columnsF dictValF args_feasible run_holds toRow_specF toSolver toSolver_ok toSolver_solves linear_toVec
  FeasibleIn toVec)
open Verif.LpSolver (Coo Flags buildTask linear)
open Verif.EndToEnd.ClassicalModel (Capacity)

variable {I : Input} {F : Type} [Field F] [LinearOrder F] [IsStrictOrderedRing F]

/-- A call that is truthful about a theory: either `set_distribution` of a distribution the theory gives to the original network, or a call whose values, bounds and constraints
hold for the probabilities that the theory assigns to the events of the inflated network. -/
inductive Truthful (I : Input) (T : InflatedTheory I F) (E : Env Mon) : Call Mon → Prop
  | distribution {P : List Nat → Rat} {lpi shared : Bool} {c : Call Mon} (hP : T.Generates fun t => ((P t : Rat) : F)) (hl : lpi = true → NoTiny E T.event)
      (hc : I.setDistribution P lpi shared = some c) : Truthful I T E c
  | direct {c : Call Mon} (h : CallTrue E T.event c) : Truthful I T E c

omit [IsStrictOrderedRing F] in
theorem InflatedTheory.column_event (T : InflatedTheory I F) (hI : I.Accepted) (hcap : ∀ v ∈ I.columns, Capacity I.scenario (flatnonzero v))
    {name : Atom → String} {E : Env Mon} (hE : I.lpEnv name = some E) {i : Nat} (hi : i < I.columns.length) :
    columnsF E (valF T.event) i = T.event (flatnonzero (I.columns.getD i [])) ∧ 0 ≤ T.event (flatnonzero (I.columns.getD i [])) := by
  have hj := columns_joint hI _ (by rw [List.getD_eq_getElem _ _ hi]; exact List.getElem_mem _ : I.columns.getD i [] ∈ I.columns)
  refine ⟨?_, T.nonneg _ hj⟩
  obtain ⟨_, _, _, _, _, _, rfl⟩ := lpEnv_some hE
  rw [← T.vec_of hj]
  exact T.column_value hI hcap hi

/-- **C58, `set_distribution` accepts every distribution of a classical model**: it does not raise, and all values it assigns to moments of the inflation are those that the
model gives to them. -/
theorem C58_distribution_accepted (hI : I.Accepted) (T : InflatedTheory I F) {P : List Nat → Rat} (hP : T.Generates fun t => ((P t : Rat) : F)) (lpi shared : Bool) :
    ∃ vals, I.setDistribution P lpi shared = some (.setValues vals lpi shared) ∧
      ∀ t ∈ vals, ∃ x, t.2 = some x ∧ valF T.event t.1 = ((x : Rat) : F) := by
  obtain ⟨vals, h1, h2⟩ := T.distributionValues_sound hI hP
  exact ⟨vals, by simp [Input.setDistribution, h1], h2⟩

theorem truthful_callTrue (hI : I.Accepted) (T : InflatedTheory I F) {name : Atom → String} {E : Env Mon} (hE : I.lpEnv name = some E)
    {c : Call Mon} (hc : Truthful I T E c) : CallTrue E T.event c := by
  cases hc with
  | direct h => exact h
  | distribution hP hl hc =>
    obtain ⟨vals, h1, h2⟩ := T.distributionValues_sound hI hP
    unfold Input.setDistribution at hc
    rw [h1] at hc
    rw [← Option.some.inj hc]
    refine ⟨?_, hl⟩
    obtain ⟨_, _, _, _, _, _, rfl⟩ := lpEnv_some hE
    intro t ht x hx
    obtain ⟨x', hx', e⟩ := h2 t ht
    rw [hx] at hx'
    rw [Option.some.inj hx']
    exact e

/-- **C58, compatible distributions satisfy the linear program.** For every causal structure, every inflation, every classical model (over any finite alphabet, with probabilities
in any ordered field) and every history of calls that are truthful about the model, the problem that `solve` hands to the solver is satisfied when every variable takes the
probability that the model gives, in the inflated network, to the event of that variable. (No event may have more than 255 independent factors, see C10.) -/
theorem C58_compatible_is_feasible (hI : I.Accepted) (T : InflatedTheory I F) (hcap : ∀ v ∈ I.columns, Capacity I.scenario (flatnonzero v))
    {name : Atom → String} {E : Env Mon} (hE : I.lpEnv name = some E) (solver : Args → SolverOut) (h : List (Call Mon)) (hh : ∀ c ∈ h, Truthful I T E c)
    {a : Args} (ha : solverArgs E (run E solver h) = some a) :
    ∃ x : Nat → F, FeasibleIn a x ∧ (∀ i, i < I.columns.length → x i = T.event (flatnonzero (I.columns.getD i [])) ∧ 0 ≤ x i) ∧
      dictValF a.objective x = dictValF (run E solver h).objective (valF T.event) := by
  have hsup : E.supports = false := by
    obtain ⟨_, _, _, _, _, _, rfl⟩ := lpEnv_some hE
    rfl
  obtain ⟨r1, r2⟩ := T.rows_hold hI hcap hE
  refine ⟨columnsF E (valF T.event), args_feasible E _ (run_good E solver h) T.event (run_holds E hsup solver T.event h fun c hc => truthful_callTrue hI T hE (hh c hc)) a ha r1 r2, ?_, ?_⟩
  · intro i hi
    obtain ⟨g1, g2⟩ := T.column_event hI hcap hE hi
    rw [g1]
    exact ⟨rfl, g2⟩
  · obtain ⟨_, _, _, _, _, _, h4, _⟩ := solverArgs_some E _ a ha
    exact (toRow_specF E _ _ h4 (valF T.event)).1

/-- **C58, the solver's primal problem.** After truthful calls, the problem built for MOSEK by `solve(solve_dual=False)` has a feasible point, at which its objective is the value
of the user's objective in the model. So a solver that answers "infeasible" is wrong, and any upper bound on the optimum is an upper bound on the objective in every
compatible model. -/
theorem C58_primal_is_feasible (hI : I.Accepted) (T : InflatedTheory I F) (hcap : ∀ v ∈ I.columns, Capacity I.scenario (flatnonzero v))
    {name : Atom → String} {E : Env Mon} (hE : I.lpEnv name = some E) (solver : Args → SolverOut) (h : List (Call Mon)) (hh : ∀ c ∈ h, Truthful I T E c)
    {a : Args} (ha : solverArgs E (run E solver h) = some a) {f : Flags} (hd : f.dual = false) (hrk : f.relaxKnown = false) (hri : f.relaxIneq = false)
    {t : LpSolver.Task F} (ht : buildTask f (toSolver I.columns.length a) = some t) :
    ∃ x, t.Feasible x ∧ t.value x = dictValF (run E solver h).objective (valF T.event) := by
  obtain ⟨x, h1, h2, h3⟩ := C58_compatible_is_feasible hI T hcap hE solver h hh ha
  obtain ⟨_, _, h4, h5⟩ := Verif.LpSolver.C29_primal_task (toSolver_ok hE solver h ha) hd hrk hri ht
  refine ⟨x, (h4 x).2 (toSolver_solves h1 _ fun j hj => (h2 j hj).2), ?_⟩
  rw [h5, ← h3]
  exact linear_toVec _ _ _

/-- **C58, the solver's dual problem** (the default of `solve`). After truthful calls the dual is bounded below by the value of the user's objective in the model: it is not
unbounded, which is how incompatibility shows in the dual. -/
theorem C58_dual_is_bounded (hI : I.Accepted) (T : InflatedTheory I F) (hcap : ∀ v ∈ I.columns, Capacity I.scenario (flatnonzero v))
    {name : Atom → String} {E : Env Mon} (hE : I.lpEnv name = some E) (solver : Args → SolverOut) (h : List (Call Mon)) (hh : ∀ c ∈ h, Truthful I T E c)
    {a : Args} (ha : solverArgs E (run E solver h) = some a) (hlb : ∀ t ∈ a.lower, 0 ≤ t.2)
    {f : Flags} (hd : f.dual = true) (hrk : f.relaxKnown = false) (hri : f.relaxIneq = false)
    {t : LpSolver.Task F} (ht : buildTask f (toSolver I.columns.length a) = some t) :
    ∀ y, t.Feasible y → dictValF (run E solver h).objective (valF T.event) ≤ t.value y := by
  obtain ⟨x, h1, h2, h3⟩ := C58_compatible_is_feasible hI T hcap hE solver h hh ha
  intro y hy
  rw [← h3, ← linear_toVec I.columns.length]
  refine Verif.LpSolver.C29_weak_duality (toSolver_ok hE solver h ha) hd hrk hri ?_ ht (toSolver_solves h1 _ fun j hj => (h2 j hj).2) hy
  intro _ e he
  obtain ⟨u, hu, rfl⟩ := List.mem_map.1 he
  exact Rat.cast_nonneg.2 (hlb u hu)

/-- **C58, feasibility as optimisation** (`relax_inequalities=True` or `feas_as_optim=True`): the optimum is not negative. -/
theorem C58_relaxed_not_negative (hI : I.Accepted) (T : InflatedTheory I F) (hcap : ∀ v ∈ I.columns, Capacity I.scenario (flatnonzero v))
    {name : Atom → String} {E : Env Mon} (hE : I.lpEnv name = some E) (solver : Args → SolverOut) (h : List (Call Mon)) (hh : ∀ c ∈ h, Truthful I T E c)
    {a : Args} (ha : solverArgs E (run E solver h) = some a) {f : Flags} (hd : f.dual = false) (hrk : f.relaxKnown = false) (hri : f.relaxIneq = true)
    {t : LpSolver.Task F} (ht : buildTask f (toSolver I.columns.length a) = some t) : ∃ z, t.Feasible z ∧ 0 ≤ t.value z := by
  obtain ⟨x, h1, h2, _⟩ := C58_compatible_is_feasible hI T hcap hE solver h hh ha
  exact (Verif.LpSolver.C30_relaxed_inequalities (toSolver_ok hE solver h ha) hd hrk hri ht).1 ⟨x, toSolver_solves h1 _ fun j hj => (h2 j hj).2⟩

/-- **C58, feasibility as optimisation with relaxed known values** (`relax_known_vars=True`): the optimum is zero. -/
theorem C58_relaxed_known_is_zero (hI : I.Accepted) (T : InflatedTheory I F) (hcap : ∀ v ∈ I.columns, Capacity I.scenario (flatnonzero v))
    {name : Atom → String} {E : Env Mon} (hE : I.lpEnv name = some E) (solver : Args → SolverOut) (h : List (Call Mon)) (hh : ∀ c ∈ h, Truthful I T E c)
    {a : Args} (ha : solverArgs E (run E solver h) = some a) (hk : a.known ≠ []) {f : Flags} (hd : f.dual = false) (hrk : f.relaxKnown = true)
    {t : LpSolver.Task F} (ht : buildTask f (toSolver I.columns.length a) = some t) : (∃ z, t.Feasible z ∧ t.value z = 0) ∧ ∀ z, t.Feasible z → t.value z ≤ 0 := by
  obtain ⟨x, h1, h2, _⟩ := C58_compatible_is_feasible hI T hcap hE solver h hh ha
  have := Verif.LpSolver.C30_relaxed_known_values (toSolver_ok (F := F) hE solver h ha) hd hrk (by simpa [toSolver, toVec] using hk) ht
  exact ⟨this.2.1 ⟨x, toSolver_solves h1 _ fun j hj => (h2 j hj).2⟩, this.1⟩

end Verif.Theory

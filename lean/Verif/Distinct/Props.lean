import Verif.Distinct.Solid
import Verif.Distinct.Closure
import Verif.EndToEnd.Dag
import Verif.QuantumNet.Props
/-!
C61: building the linear program, filling it with a distribution and preparing the solver's task never fail.
-/
set_option linter.unusedSectionVars false

namespace Verif.Distinct
open Verif.Common Verif.Scenario Verif.Orbits Verif.Components Verif.Moment Verif.State Verif.CollinsGisin Verif.EndToEnd
open Verif.SdpEnd (copiesOf capacity_of_copies)
open Verif.LpSolver (Flags buildTask dropZeroRows prepare)
open Verif.EndToEnd.ClassicalModel (Capacity)
open Verif.Theory (InflatedTheory)

variable {I : Input} {F : Type} [Field F] [LinearOrder F] [IsStrictOrderedRing F]

/-- **C61, construction.** For every accepted problem with at most 254 copies of sources in total, the constructor's assertions hold: the moments of the columns are pairwise different, the
first one is the unit, and every matrix is generated. -/
theorem C61_construction_succeeds (hI : I.Accepted) (hS : copiesOf I.scenario ≤ 254) (name : Atom → String) :
    (∃ E, I.lpEnv name = some E) ∧ I.monomials.head? = some one ∧ I.monomials.Nodup ∧ I.monomials.length = I.columns.length := by
  obtain ⟨E, hE, _⟩ := lpEnv_exists hI hS name
  exact ⟨⟨E, hE⟩, monomials_head hI, monomials_nodup hI hS, monomials_length⟩

/-- **C61, closure.** Dropping some of the factors of a moment of the program, in any order, leaves a moment of the program; in particular every atomic factor is a moment of the
program and linearised polynomial constraints only mention moments of the program. -/
theorem C61_factors_are_moments (hI : I.Accepted) (hS : copiesOf I.scenario ≤ 254) {m : Mon} (hm : m ∈ I.monomials) {l : Mon} (hl : l.Subperm m) : sortBy atomLe l ∈ I.monomials :=
  monomials_closed hI hS hm hl

theorem atomicFactor_moment (hI : I.Accepted) (hS : copiesOf I.scenario ≤ 254) {a : Atom} (ha : a ∈ I.atomicFactors) : [a] ∈ I.monomials := by
  unfold Input.atomicFactors at ha
  rw [mem_sortBy, Verif.Common.mem_dedupB, List.mem_flatten] at ha
  obtain ⟨m, hm, ham⟩ := ha
  have := monomials_closed hI hS hm (l := [a]) (List.singleton_subperm_iff.2 ham)
  simpa [sortBy, insertBy] using this

/-- **C61, `set_distribution` never raises**, whatever array is given (normalised or not, compatible or not), and it only sets moments of the program. -/
theorem C61_set_distribution_succeeds (hI : I.Accepted) (hS : copiesOf I.scenario ≤ 254) (P : List Nat → Rat) (lpi shared : Bool) :
    ∃ vals, I.setDistribution P lpi shared = some (.setValues vals lpi shared) ∧ (∀ t ∈ vals, t.1 ∈ I.monomials ∧ ∃ a, t.1 = [a]) ∧
      ∀ a ∈ I.atomicFactors, I.knowable a = true → ∃ x, ([a], some x) ∈ vals := by
  have hex : ∃ vals, I.distributionValues P = some vals := by
    unfold Input.distributionValues
    apply mapM_exists
    intro a ha
    rw [List.mem_filter] at ha
    obtain ⟨x, o, x', _, _, _, _, _, h⟩ := Verif.Theory.atomMarginal_explicit hI P (atomicFactors_good hI a ha.1) ha.2
    exact ⟨_, by rw [h]; rfl⟩
  obtain ⟨vals, hv⟩ := hex
  have hf := List.forall₂_iff_get.1 (Verif.LpSolver.mapM_forall₂ hv)
  refine ⟨vals, by unfold Input.setDistribution; rw [hv]; rfl, ?_, ?_⟩
  · intro t ht
    obtain ⟨i, hi, rfl⟩ := List.getElem_of_mem ht
    obtain ⟨v, _, e⟩ := Option.map_eq_some_iff.1 (hf.2 i (by rw [hf.1]; exact hi) hi)
    have e' : _ = vals[i] := e
    rw [← e']
    exact ⟨atomicFactor_moment hI hS (List.mem_of_mem_filter (List.getElem_mem _)), _, rfl⟩
  · intro a ha hk
    obtain ⟨i, hi, e⟩ := List.getElem_of_mem (List.mem_filter.2 ⟨ha, hk⟩)
    obtain ⟨v, _, e2⟩ := Option.map_eq_some_iff.1 (hf.2 i hi (by rw [← hf.1]; exact hi))
    refine ⟨v, ?_⟩
    have e' : ([(I.atomicFactors.filter I.knowable)[i]], some v) = vals[i]'(by rw [← hf.1]; exact hi) := e2
    rw [e] at e'
    rw [e']
    exact List.getElem_mem _

/-- A call that can be made without knowing anything about the implementation: `set_distribution` of an arbitrary array, or any other call that mentions only moments of the program (any
values, bounds, objectives) and gives no constraint without coefficients. -/
inductive Safe (I : Input) (E : Env Mon) : Call Mon → Prop
  | distribution {P : List Nat → Rat} {lpi shared : Bool} {c : Call Mon} (hc : I.setDistribution P lpi shared = some c) : Safe I E c
  | direct {c : Call Mon} (h : ∀ m ∈ mentions E c, m ∈ I.monomials) (hn : NoEmpty c) : Safe I E c

theorem Safe.spec (hI : I.Accepted) (hS : copiesOf I.scenario ≤ 254) {E : Env Mon} (hm : E.monomials = I.monomials) (hsan : E.san = id) {c : Call Mon} (h : Safe I E c) :
    (∀ m ∈ mentions E c, m ∈ E.monomials) ∧ NoEmpty c := by
  cases h with
  | @distribution P lpi shared c hc =>
    obtain ⟨vals, h1, h2, _⟩ := C61_set_distribution_succeeds hI hS P lpi shared
    rw [h1] at hc
    obtain rfl := (Option.some.inj hc).symm
    refine ⟨?_, trivial⟩
    intro m hmem
    obtain ⟨t, ht, rfl⟩ := List.mem_map.1 hmem
    rw [hm, hsan]
    exact (h2 t ht).1
  | direct h hn => exact ⟨by rw [hm]; exact h, hn⟩

/-- **C61, `solve` never raises before the solver is called.** For every accepted problem with at most 254 copies of sources, every history of calls that mention only moments of the
program and contain no empty constraint, and every combination of the solver options, the arguments are prepared and the task of the solver is defined. -/
theorem C61_solve_reaches_solver (hI : I.Accepted) (hS : copiesOf I.scenario ≤ 254) {name : Atom → String} {E : Env Mon} (hE : I.lpEnv name = some E) (solver : Args → SolverOut)
    (h : List (Call Mon)) (hh : ∀ c ∈ h, Safe I E c) :
    ∃ a, solverArgs E (run E solver h) = some a ∧ ∀ f : Flags, ∃ t : LpSolver.Task F, buildTask f (toSolver I.columns.length a) = some t := by
  obtain ⟨E', hE', hcl, hm, hsan⟩ := lpEnv_exists hI hS name
  obtain rfl : E' = E := Option.some.inj (hE'.symm.trans hE)
  obtain ⟨a, ha⟩ := Ready.solverArgs (run_good E' solver h) (run_ready hcl solver h fun c hc => ((hh c hc).spec hI hS hm hsan).1)
  refine ⟨a, ha, fun f => ?_⟩
  have hso := run_solid E' solver h fun c hc => ((hh c hc).spec hI hS hm hsan).2
  obtain ⟨xe, se, xi, h1, h2, h3, _, _, _, _, h8, h9⟩ := solverArgs_some E' _ a ha
  obtain ⟨m1, m2, m3⟩ := minimal_rows hI hE
  apply LpSolver.C29_task_exists (toSolver_ok hE solver h ha)
  · apply toMat_entry
    rw [h9]
    intro r hr
    rcases List.mem_append.1 hr with hr | hr
    · exact m2 r hr
    · exact rows_ne h3 hso.ineq r hr
  · apply toMat_entry
    rw [h8]
    intro r hr
    rcases List.mem_append.1 hr with hr | hr
    · rcases List.mem_append.1 hr with hr | hr
      · exact m1 r hr
      · exact rows_ne h1 hso.eq r hr
    · exact semi_ne h2 r hr
  · have : (toSolver I.columns.length a : LpSolver.Args F).ineq.rows = a.inequalities.length := toMat_rows _ _
    rw [this, h9, List.length_append]
    omega

theorem dropZeroRows_none {A : LpSolver.Coo F} (hc : 0 < A.cols) (hr : ∀ e ∈ A.ents, e.1 < A.rows) {i : Nat} (hi : i < A.rows) (h : ∀ e ∈ A.ents, e.1 ≠ i) : dropZeroRows A = none := by
  unfold dropZeroRows
  rw [if_neg]
  intro e
  have e' := Nat.eq_of_mul_eq_mul_right hc e
  have hsub : (npUnique (A.ents.map fun e => e.1)) ⊆ (List.range A.rows).erase i := by
    intro x hx
    rw [mem_npUnique, List.mem_map] at hx
    obtain ⟨t, ht, rfl⟩ := hx
    exact (List.mem_erase_of_ne (h t ht)).2 (List.mem_range.2 (hr t ht))
  have hle := (npUnique_nodup (A.ents.map fun e => e.1)).length_le_of_subset hsub
  rw [List.length_erase_of_mem (List.mem_range.2 hi), List.length_range] at hle
  omega

theorem toMat_row_lt {n : Nat} {rows : List (Dict Nat Rat)} : ∀ e ∈ (toMat n rows : LpSolver.Coo F).ents, e.1 < (toMat n rows : LpSolver.Coo F).rows ∧
    ∀ i (hi : i < rows.length), e.1 = i → rows[i] ≠ [] := by
  intro e he
  unfold toMat LpSolver.rowsMat at he
  rw [List.mem_flatten] at he
  obtain ⟨l, hl, hel⟩ := he
  obtain ⟨j, hj, rfl⟩ := List.mem_mapIdx.1 hl
  obtain ⟨t, ht, rfl⟩ := List.mem_map.1 hel
  refine ⟨by rw [toMat_rows]; simpa using hj, ?_⟩
  rintro i hi rfl hnil
  simp [hnil] at ht

theorem empty_row_raises {n : Nat} (hn : 0 < n) {rows : List (Dict Nat Rat)} (h : [] ∈ rows) : dropZeroRows (toMat n rows : LpSolver.Coo F) = none := by
  obtain ⟨i, hi, e⟩ := List.getElem_of_mem h
  refine dropZeroRows_none (i := i) hn (fun e he => (toMat_row_lt e he).1) (by rw [toMat_rows]; exact hi) ?_
  intro u hu hui
  exact (toMat_row_lt u hu).2 i hi hui e

theorem sanitiseDict_empty {K : Type} (E : Env K) {l : List (K × Rat)} (h : ∀ t ∈ l, isClose0 t.2 = true) : sanitiseDict E l = [] := by
  unfold sanitiseDict
  generalize ([] : Dict Mon Rat) = d
  induction l generalizing d with
  | nil => rfl
  | cons u l ih =>
    rw [List.foldl_cons, if_pos (h u (List.mem_cons_self ..))]
    exact ih (fun t ht => h t (List.mem_cons_of_mem _ ht)) d

theorem mapM_nil_mem {E : Env Mon} {l : List (Dict Mon Rat)} {r : List (Dict Nat Rat)} (h : l.mapM (toRow E) = some r) (hl : [] ∈ l) : [] ∈ r := by
  have hf := List.forall₂_iff_get.1 (Verif.LpSolver.mapM_forall₂ h)
  obtain ⟨i, hi, e⟩ := List.getElem_of_mem hl
  have h2 := hf.2 i hi (by rw [← hf.1]; exact hi)
  rw [show l.get ⟨i, hi⟩ = [] from e] at h2
  have h3 : r.get ⟨i, by rw [← hf.1]; exact hi⟩ = [] := (Option.some.inj h2).symm
  rw [← h3]
  exact List.get_mem ..

/-- **C61 fails for empty constraints.** Whatever the problem, after `set_extra_equalities` (or `set_extra_inequalities`) with a constraint all of whose coefficients are at most `1e-8`
in absolute value, in particular the trivial constraint `{}`, `solve` raises whatever the options of the solver: `drop_zero_rows` cannot reshape the matrix (lp_utils.py). -/
theorem C61_false_empty_constraint {name : Atom → String} {E : Env Mon} (hE : I.lpEnv name = some E) (solver : Args → SolverOut) (h : List (Call Mon))
    {l : List (List (Mon × Rat))} {d : List (Mon × Rat)} (hd : d ∈ l) (hz : ∀ t ∈ d, |t.2| ≤ 1 / 100000000) {a : Args}
    (ha : solverArgs E (run E solver (h ++ [.setExtraEq l])) = some a ∨ solverArgs E (run E solver (h ++ [.setExtraIneq l])) = some a) (f : Flags) :
    (buildTask f (toSolver I.columns.length a) : Option (LpSolver.Task F)) = none := by
  have hempty : [] ∈ l.map (sanitiseDict E) := List.mem_map.2 ⟨d, hd, sanitiseDict_empty E fun t ht => by
    have := hz t ht
    unfold isClose0
    simpa using this⟩
  have hn : 0 < I.columns.length := by
    obtain ⟨_, _, _, _, h3, _, _⟩ := lpEnv_some hE
    rw [← monomials_length]
    rcases hm : I.monomials with _ | ⟨m, ms⟩
    · rw [hm] at h3; simp at h3
    · simp
  have hrun : ∀ c, run E solver (h ++ [c]) = step E solver (run E solver h) c := by
    intro c
    unfold run
    rw [List.foldl_append]
    rfl
  unfold buildTask prepare
  rcases ha with ha | ha
  · rw [hrun] at ha
    obtain ⟨xe, se, xi, h1, h2, h3, _, _, _, _, h8, h9⟩ := solverArgs_some E _ a ha
    have hin : [] ∈ a.equalities := by
      rw [h8, List.mem_append, List.mem_append]
      exact .inl (.inr (mapM_nil_mem h1 hempty))
    have := empty_row_raises (F := F) hn hin
    rw [show (toSolver I.columns.length a : LpSolver.Args F).eq = toMat I.columns.length a.equalities from rfl, this]
    rcases dropZeroRows (toSolver I.columns.length a : LpSolver.Args F).ineq with _ | x <;> rfl
  · rw [hrun] at ha
    obtain ⟨xe, se, xi, h1, h2, h3, _, _, _, _, h8, h9⟩ := solverArgs_some E _ a ha
    have hin : [] ∈ a.inequalities := by
      rw [h9, List.mem_append]
      exact .inr (mapM_nil_mem h3 hempty)
    have := empty_row_raises (F := F) hn hin
    rw [show (toSolver I.columns.length a : LpSolver.Args F).ineq = toMat I.columns.length a.inequalities from rfl, this]
    rfl

theorem columns_capacity (hI : I.Accepted) (hS : copiesOf I.scenario ≤ 254) : ∀ v ∈ I.columns, Capacity I.scenario (flatnonzero v) :=
  fun v hv => capacity_of_copies _ hS (flatnonzero_lt (columns_length hI v hv))

/-- **C61 and C52, the whole pipeline for classical causal models.** Build the program for any accepted problem with at most 254 copies of sources; set the distribution of any classical
causal model of the graph; call `solve` with any non-relaxing options: nothing raises, the primal problem is feasible, the dual problem is bounded below by 0. -/
theorem C61_pipeline_classical {Λ : Type} [Fintype Λ] (hI : I.Accepted) (hS : copiesOf I.scenario ≤ 254) (hD : WellFormed I.D) (M : CausalModel I.D I.outcomes I.priv Λ F) {P : List Nat → Rat}
    (hP : M.Generates fun t => ((P t : Rat) : F)) (name : Atom → String) (solver : Args → SolverOut) (shared : Bool) :
    ∃ E c a, I.lpEnv name = some E ∧ I.setDistribution P false shared = some c ∧ solverArgs E (run E solver [c]) = some a ∧
      ∀ f : Flags, f.relaxKnown = false → f.relaxIneq = false → ∃ t : LpSolver.Task F, buildTask f (toSolver I.columns.length a) = some t ∧
        (f.dual = false → ∃ x, t.Feasible x) ∧ (f.dual = true → ∀ y, t.Feasible y → 0 ≤ t.value y) := by
  obtain ⟨E, hE, _⟩ := lpEnv_exists hI hS name
  obtain ⟨c, hc, h⟩ := C52_dag_model_accepted hI hD M hP (columns_capacity hI hS) hE solver false shared (by simp)
  obtain ⟨a, ha, ht⟩ := C61_solve_reaches_solver (F := F) hI hS hE solver [c] (by
    intro c' hc'
    rw [List.mem_singleton] at hc'
    subst hc'
    exact .distribution hc)
  refine ⟨E, c, a, hE, hc, ha, fun f h1 h2 => ?_⟩
  obtain ⟨t, ht⟩ := ht f
  exact ⟨t, ht, h a ha f h1 h2 t ht⟩

/-- **C61 and C58, the whole pipeline for any theory of the network** (quantum or beyond). -/
theorem C61_pipeline_theory (hI : I.Accepted) (hS : copiesOf I.scenario ≤ 254) (T : InflatedTheory I F) {P : List Nat → Rat} (hP : T.Generates fun t => ((P t : Rat) : F))
    (name : Atom → String) (solver : Args → SolverOut) (shared : Bool) :
    ∃ E c a, I.lpEnv name = some E ∧ I.setDistribution P false shared = some c ∧ solverArgs E (run E solver [c]) = some a ∧
      ∀ f : Flags, f.relaxKnown = false → f.relaxIneq = false → ∃ t : LpSolver.Task F, buildTask f (toSolver I.columns.length a) = some t ∧
        (f.dual = false → ∃ x, t.Feasible x) ∧ (f.dual = true → ∀ y, t.Feasible y → 0 ≤ t.value y) := by
  obtain ⟨E, hE, _⟩ := lpEnv_exists hI hS name
  obtain ⟨vals, hc, -, -⟩ := C61_set_distribution_succeeds hI hS P false shared
  obtain ⟨a, ha, ht⟩ := C61_solve_reaches_solver (F := F) hI hS hE solver [.setValues vals false shared] (by
    intro c' hc'
    rw [List.mem_singleton] at hc'
    subst hc'
    exact .distribution hc)
  refine ⟨E, _, a, hE, hc, ha, fun f h1 h2 => ?_⟩
  obtain ⟨t, ht⟩ := ht f
  have htr : ∀ c ∈ [Call.setValues vals false shared], Verif.Theory.Truthful I T E c := by
    intro c' hc'
    rw [List.mem_singleton] at hc'
    subst hc'
    exact .distribution hP (by simp) hc
  obtain ⟨f1, f2, _⟩ := fresh_solverArgs hE ha
  refine ⟨t, ht, fun hd => ?_, fun hd y hy => ?_⟩
  · obtain ⟨x, hx, _⟩ := Verif.Theory.C58_primal_is_feasible hI T (columns_capacity hI hS) hE solver _ htr ha hd h1 h2 ht
    exact ⟨x, hx⟩
  · obtain ⟨x, g1, g2, g3⟩ := Verif.Theory.C58_compatible_is_feasible hI T (columns_capacity hI hS) hE solver _ htr ha
    have := Verif.Theory.C58_dual_is_bounded hI T (columns_capacity hI hS) hE solver _ htr ha (by rw [f2]; simp) hd h1 h2 ht y hy
    rw [← g3, f1] at this
    simpa [dictValF] using this

/-- **C61 and C58, the whole pipeline for quantum networks.** -/
theorem C61_pipeline_quantum {A : Type} [Fintype A] [DecidableEq A] (hI : I.Accepted) (hS : copiesOf I.scenario ≤ 254) (N : Verif.QuantumNet.QuantumNetwork I A) {P : List Nat → Rat}
    (hP : N.Generates fun t => ((P t : Rat) : ℂ)) (name : Atom → String) (solver : Args → SolverOut) (shared : Bool) :
    ∃ E c a, I.lpEnv name = some E ∧ I.setDistribution P false shared = some c ∧ solverArgs E (run E solver [c]) = some a ∧
      ∀ f : Flags, f.relaxKnown = false → f.relaxIneq = false → ∃ t : LpSolver.Task ℝ, buildTask f (toSolver I.columns.length a) = some t ∧
        (f.dual = false → ∃ x, t.Feasible x) ∧ (f.dual = true → ∀ y, t.Feasible y → 0 ≤ t.value y) :=
  C61_pipeline_theory hI hS (Verif.Theory.ofQuantum (Verif.QuantumNet.inflate N hI)) (Verif.QuantumNet.generates_of_network N hI hP) name solver shared

end Verif.Distinct

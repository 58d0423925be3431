import Verif.EndToEnd.Dag
import Verif.Theory.Props
import Verif.QuantumNet.Props
import Verif.Sanitise.Props
import Verif.Distinct.Lp
/-!
C65 for the linear program: the value reported by `solve` bounds the objective that the user wrote, in every model of the causal structure.
-/
namespace Verif.Optimum
open Verif.Common Verif.Moment Verif.State Verif.Scenario
open Verif.Orbits (flatnonzero)
open Verif.EndToEnd (Input ClassicalModel CausalModel WellFormed valF dictValF lpEnv_some toSolver userValF sanitise_valF atomMarginal_sound toClassical_realises)
open Verif.EndToEnd.ClassicalModel (Capacity)
open Verif.LpSolver (Flags buildTask)
open Verif.Theory (InflatedTheory)

variable {I : Input} {F : Type} [Field F] [LinearOrder F] [IsStrictOrderedRing F]

/-! ### What is assumed of the solver -/

/-- The options of `solve()`: with or without dualising, with or without the default of non-negative variables; nothing is relaxed. -/
def plain (dual nonneg : Bool) : Flags := ⟨dual, nonneg, false, false⟩

/-- The objective value of a successful call is right up to `δ`: when the primal form is solved (a maximisation) it is an upper bound on the task up to `δ`; when the dual form is solved (a minimisation) it
is, up to `δ`, at least the value at a point of the task. -/
def TrustedLp (F : Type) [Field F] [LinearOrder F] (n : Nat) (dual nonneg : Bool) (δ : F) (solver : Args → SolverOut) : Prop :=
  ∀ a, (solver a).success = true → ∃ t : LpSolver.Task F, buildTask (plain dual nonneg) (toSolver n a) = some t ∧
    if dual then ∃ y, t.Feasible y ∧ t.value y - δ ≤ (((solver a).primal : Rat) : F)
    else ∀ z, t.Feasible z → t.value z - δ ≤ (((solver a).primal : Rat) : F)

/-- What a reported optimum `v` should say about the value `x` of the objective in a model. -/
def BoundedBy {F : Type} [Field F] [LinearOrder F] (maxi : Bool) (δ x v : F) : Prop := if maxi then x ≤ v + δ else v - δ ≤ x

/-- Calls that leave the objective alone. -/
def KeepsObjective {K : Type} (c : Call K) : Prop := (∀ o m, c ≠ .setObjective o m) ∧ c ≠ .reset .objective ∧ c ≠ .reset .all

/-! ### The objective -/

omit [Field F] [LinearOrder F] [IsStrictOrderedRing F] in
theorem step_keeps {K : Type} (E : Env K) (solver : Args → SolverOut) (s : LpState) (c : Call K) (hc : KeepsObjective c) :
    (step E solver s c).objective = s.objective ∧ (step E solver s c).maximize = s.maximize := by
  cases c with
  | setValues v lpi o =>
    show (setValues E v lpi o s).objective = _ ∧ (setValues E v lpi o s).maximize = _
    unfold setValues updateValues cleanup
    cases hv : v.isEmpty <;> cases o <;> cases hE : E.supports <;> simp [resetValues, resetSolution]
  | updateValues v lpi o =>
    show (updateValues E v lpi o s).objective = _ ∧ (updateValues E v lpi o s).maximize = _
    unfold updateValues cleanup
    cases hv : v.isEmpty <;> cases o <;> cases hE : E.supports <;> simp [resetSolution]
  | setObjective o m => exact absurd rfl (hc.1 o m)
  | setLower b =>
    show (setLower E b s).objective = _ ∧ (setLower E b s).maximize = _
    unfold setLower
    split
    · exact ⟨rfl, rfl⟩
    · split <;> exact ⟨rfl, rfl⟩
  | setUpper b =>
    show (setUpper E b s).objective = _ ∧ (setUpper E b s).maximize = _
    unfold setUpper
    split
    · exact ⟨rfl, rfl⟩
    · split <;> exact ⟨rfl, rfl⟩
  | setExtraEq l => exact ⟨rfl, rfl⟩
  | setExtraIneq l => exact ⟨rfl, rfl⟩
  | reset w =>
    cases w with
    | all => exact absurd rfl hc.2.2
    | objective => exact absurd rfl hc.2.1
    | bounds => exact ⟨rfl, rfl⟩
    | lowerbounds => exact ⟨rfl, rfl⟩
    | upperbounds => exact ⟨rfl, rfl⟩
    | values => exact ⟨rfl, rfl⟩
  | solve =>
    show (solve E solver s).objective = _ ∧ (solve E solver s).maximize = _
    unfold solve
    split <;> exact ⟨rfl, rfl⟩
  | readEqByName =>
    obtain ⟨c, hc⟩ := eqByName_fst E s
    show (eqByName E s).2.objective = _ ∧ (eqByName E s).2.maximize = _
    rw [hc]; exact ⟨rfl, rfl⟩
  | readIneqByName =>
    obtain ⟨c, hc⟩ := ineqByName_fst E s
    show (ineqByName E s).2.objective = _ ∧ (ineqByName E s).2.maximize = _
    rw [hc]; exact ⟨rfl, rfl⟩
  | prepareArguments b =>
    obtain ⟨c, c', hc⟩ := argsByName_fst E b s
    show (argsByName E b s).2.2.objective = _ ∧ (argsByName E b s).2.2.maximize = _
    rw [hc]; exact ⟨rfl, rfl⟩

/-- The state of the objective long after it has been set. -/
theorem objective_of {K : Type} (E : Env K) (solver : Args → SolverOut) (h h' : List (Call K)) (d : List (K × Rat)) (maxi : Bool) (hk : ∀ c ∈ h', KeepsObjective c) :
    (run E solver (h ++ .setObjective (some d) maxi :: h')).objective = (sanitiseDict E d).map (fun t => (t.1, (if maxi then 1 else -1) * t.2)) ∧
      (run E solver (h ++ .setObjective (some d) maxi :: h')).maximize = maxi := by
  rw [run_append, List.foldl_cons]
  refine fold_induction E solver (fun s => s.objective = (sanitiseDict E d).map (fun t => (t.1, (if maxi then 1 else -1) * t.2)) ∧ s.maximize = maxi)
    KeepsObjective ?_ h' hk _ ⟨rfl, rfl⟩
  intro s c hc hs
  obtain ⟨e1, e2⟩ := step_keeps E solver s c hc
  rw [e1, e2]
  exact hs

omit [IsStrictOrderedRing F] [LinearOrder F] in
theorem signed_val (d : Dict Mon Rat) (maxi : Bool) (y : Mon → F) :
    dictValF (d.map fun t => (t.1, (if maxi then 1 else -1) * t.2)) y = (if maxi then 1 else -1) * dictValF d y := by
  unfold dictValF
  induction d with
  | nil => simp
  | cons t l ih =>
    simp only [List.map_cons, List.sum_cons, mul_add] at ih ⊢
    rw [ih]
    cases maxi <;> simp

/-- From the problem that the solver is given to what the user reads. -/
theorem reported {E : Env Mon} (solver : Args → SolverOut) {h h' : List (Call Mon)} {d : List (Mon × Rat)} {maxi : Bool}
    (hd : ∀ t ∈ d, isClose0 t.2 = true → t.2 = 0) (hk : ∀ c ∈ h', KeepsObjective c) (hsan : ∀ m, E.san m = m) {dual nonneg : Bool} {δ : F} (hT : TrustedLp F I.columns.length dual nonneg δ solver)
    {status : String} {v : Rat} (hv : (run E solver (h ++ .setObjective (some d) maxi :: h' ++ [.solve])).result = .solved status v)
    {a : Args} (ha : solverArgs E (run E solver (h ++ .setObjective (some d) maxi :: h')) = some a) (val : Mon → F)
    (hprimal : dual = false → ∀ t, buildTask (plain dual nonneg) (toSolver I.columns.length a) = some t →
      ∃ x : Nat → F, t.Feasible x ∧ t.value x = dictValF (run E solver (h ++ .setObjective (some d) maxi :: h')).objective val)
    (hdual : dual = true → ∀ t, buildTask (plain dual nonneg) (toSolver I.columns.length a) = some t →
      ∀ y : Nat → F, t.Feasible y → dictValF (run E solver (h ++ .setObjective (some d) maxi :: h')).objective val ≤ t.value y) :
    BoundedBy maxi δ (d.map fun t => ((t.2 : Rat) : F) * val t.1).sum ((v : Rat) : F) := by
  obtain ⟨ho, hm⟩ := objective_of E solver h h' d maxi hk
  generalize hs : run E solver (h ++ .setObjective (some d) maxi :: h') = s at *
  rw [run_append, hs] at hv
  have hv : (solve E solver s).result = .solved status v := hv
  have hval : dictValF s.objective val = (if maxi then 1 else -1) * (d.map fun t => ((t.2 : Rat) : F) * val t.1).sum := by
    rw [ho, signed_val, sanitise_valF E d val hd]
    unfold userValF
    congr 3
    funext t
    rw [hsan]
  · unfold solve at hv
    rw [ha] at hv
    dsimp only at hv
    rcases hsucc : (solver a).success with _ | _
    · rw [hsucc] at hv; simp at hv
    rw [hsucc, if_pos rfl, hm] at hv
    have hv' : v = (solver a).primal * (if maxi then 1 else -1) := by
      injection hv with _ e
      exact e.symm
    obtain ⟨t, ht, hb⟩ := hT a hsucc
    have hle : dictValF s.objective val - δ ≤ (((solver a).primal : Rat) : F) := by
      cases dual with
      | false =>
        obtain ⟨x, h1, h2⟩ := hprimal rfl t ht
        rw [← h2]
        exact hb x h1
      | true =>
        obtain ⟨y, h1, h2⟩ := hb
        exact (sub_le_sub_right (hdual rfl t ht y h1) δ).trans h2
    rw [hval] at hle
    unfold BoundedBy
    subst hv'
    cases maxi with
    | true =>
      simp only [if_true, one_mul, mul_one] at hle ⊢
      linarith
    | false =>
      simp only [Bool.false_eq_true, if_false] at hle ⊢
      push_cast
      linarith

section
variable {name : Atom → String} {E : Env Mon} {solver : Args → SolverOut} {h h' : List (Call Mon)} {d : List (Mon × Rat)} {maxi : Bool} {dual nonneg : Bool} {δ : F} {status : String} {v : Rat}

/-- **C65, classical models.** Build the linear program of any accepted problem and tell it only what is true of a classical model `M`; set an objective `d` (no coefficient strictly between 0 and 10⁻⁸), and
later call `solve`. If the solver is right up to `δ` about the problem it is given, the reported optimum bounds the value of the objective in `M`, from above for a maximisation and from below for a
minimisation. -/
theorem C65_lp_bound_classical {Λ : Type} [Fintype Λ] (hI : I.Accepted) (M : ClassicalModel I.scenario I.observed Λ F) (hcap : ∀ v ∈ I.columns, Capacity I.scenario (flatnonzero v))
    (hE : I.lpEnv name = some E) (hd : ∀ t ∈ d, isClose0 t.2 = true → t.2 = 0) (hh : ∀ c ∈ h ++ .setObjective (some d) maxi :: h', EndToEnd.Truthful I M E c)
    (hk : ∀ c ∈ h', KeepsObjective c) (hT : TrustedLp F I.columns.length dual nonneg δ solver)
    {a : Args} (ha : solverArgs E (run E solver (h ++ .setObjective (some d) maxi :: h')) = some a) (hlb : dual = true → ∀ t ∈ a.lower, 0 ≤ t.2)
    (hv : (run E solver (h ++ .setObjective (some d) maxi :: h' ++ [.solve])).result = .solved status v) :
    BoundedBy maxi δ (d.map fun t => ((t.2 : Rat) : F) * valF M.event t.1).sum ((v : Rat) : F) := by
  have hsan : ∀ m, E.san m = m := by obtain ⟨_, _, _, _, _, _, rfl⟩ := lpEnv_some hE; exact fun _ => rfl
  refine reported solver hd hk hsan hT hv ha (valF M.event) ?_ ?_
  · rintro rfl t ht
    exact EndToEnd.C52_primal_is_feasible hI M hcap hE solver _ hh ha rfl rfl rfl ht
  · rintro rfl t ht
    exact EndToEnd.C52_dual_is_bounded hI M hcap hE solver _ hh ha (hlb rfl) rfl rfl rfl ht

/-- **C65, physical theories.** The same for every physical theory and a nonfanout inflation. -/
theorem C65_lp_bound_theories (hI : I.Accepted) (T : InflatedTheory I F) (hcap : ∀ v ∈ I.columns, Capacity I.scenario (flatnonzero v))
    (hE : I.lpEnv name = some E) (hd : ∀ t ∈ d, isClose0 t.2 = true → t.2 = 0) (hh : ∀ c ∈ h ++ .setObjective (some d) maxi :: h', Theory.Truthful I T E c)
    (hk : ∀ c ∈ h', KeepsObjective c) (hT : TrustedLp F I.columns.length dual nonneg δ solver)
    {a : Args} (ha : solverArgs E (run E solver (h ++ .setObjective (some d) maxi :: h')) = some a) (hlb : dual = true → ∀ t ∈ a.lower, 0 ≤ t.2)
    (hv : (run E solver (h ++ .setObjective (some d) maxi :: h' ++ [.solve])).result = .solved status v) :
    BoundedBy maxi δ (d.map fun t => ((t.2 : Rat) : F) * valF T.event t.1).sum ((v : Rat) : F) := by
  have hsan : ∀ m, E.san m = m := by obtain ⟨_, _, _, _, _, _, rfl⟩ := lpEnv_some hE; exact fun _ => rfl
  refine reported solver hd hk hsan hT hv ha (valF T.event) ?_ ?_
  · rintro rfl t ht
    exact Theory.C58_primal_is_feasible hI T hcap hE solver _ hh ha rfl rfl rfl ht
  · rintro rfl t ht
    exact Theory.C58_dual_is_bounded hI T hcap hE solver _ hh ha (hlb rfl) rfl rfl rfl ht

end

end Verif.Optimum

import Verif.Optimum.Lp
import Verif.SdpEnd.ClassicalSound
import Verif.QuantumNet.Props
import Verif.SdpState.Truth
/-!
C65 for the semidefinite program: the value reported by `solve` bounds the objective that the user wrote, in every model of the causal structure.
-/
namespace Verif.Optimum
open Verif.Common Verif.Moment Verif.Scenario Verif.SdpEnd
open Verif.State (Dict Mon)
open Verif.EndToEnd (Input CausalModel WellFormed dictValF dictValF_set userValF sanitise_valF toClassical_realises)
open Verif.QuantumNet (QuantumNetwork inflate generates_of_network)

variable {I : Input}

/-! ### What is assumed of the solver -/

/-- The objective value of a "feasible" answer is right up to `δ`: when the dual form is solved (a minimisation) it is, up to `δ`, at least the value at a point of the dual problem; when the primal form is
solved (a maximisation) it is an upper bound on the problem up to `δ`. The problem is the one that sdp_utils.py prepares from the arguments, without the options of relaxing it. -/
def TrustedSdp (n : Nat) (B : Built) (dual : Bool) (δ : ℝ) (solver : SdpState.Args → SdpState.SolverOut) : Prop :=
  ∀ a, (solver a).status = "feasible" → ∃ (fl : SdpSolver.Flags (Option Mon)) (P : SdpSolver.Prep (Option Mon) ℝ n), fl.feas = false ∧ fl.nonneg = false ∧
    SdpSolver.prep fl (solverInput n B a) = some P ∧
    if dual then ∃ Z mi me, P.Dual false Z mi me ∧ P.dualValue false Z mi me - δ ≤ (((solver a).primal : Rat) : ℝ)
    else ∀ x G, P.Primal false x G → P.primalValue x - δ ≤ (((solver a).primal : Rat) : ℝ)

/-- Calls that leave the objective alone. -/
def KeepsSdpObjective {K : Type} (c : SdpState.Call K) : Prop := (∀ o m, c ≠ .setObjective o m) ∧ c ≠ .reset .objective ∧ c ≠ .reset .all

/-! ### The objective -/

theorem sdp_objective_of {K : Type} (E : SdpState.Env K) (solver : SdpState.Args → SdpState.SolverOut) (h h' : List (SdpState.Call K)) (d : List (K × Rat)) (maxi : Bool)
    (hok : SdpState.Ok E solver (h ++ .setObjective (some d) maxi :: h')) (hk : ∀ c ∈ h', KeepsSdpObjective c) :
    (SdpState.run E solver (h ++ .setObjective (some d) maxi :: h')).objective = SdpState.newObjective E d maxi ∧
      (SdpState.run E solver (h ++ .setObjective (some d) maxi :: h')).maximize = maxi := by
  rw [SdpState.run_append, List.foldl_cons]
  have hok1 : (SdpState.setObjective E (some d) maxi (SdpState.run E solver h)).2 = none := hok h _ h' rfl
  have hb : (SdpState.setObjective E (some d) maxi (SdpState.run E solver h)).1.objective = SdpState.newObjective E d maxi ∧ (SdpState.setObjective E (some d) maxi (SdpState.run E solver h)).1.maximize = maxi := by
    unfold SdpState.setObjective at hok1 ⊢
    by_cases hE : (E.supports && (some d).isSome) = true
    · rw [if_pos hE] at hok1; simp at hok1
    · rw [if_neg hE]
      dsimp only
      split <;> exact ⟨rfl, rfl⟩
  have hgb : SdpState.Good (SdpState.setObjective E (some d) maxi (SdpState.run E solver h)).1 := SdpState.setObjective_good E _ _ _ (SdpState.run_good E solver h)
  refine (SdpState.fold_induction E solver (fun s => SdpState.Good s ∧ s.objective = SdpState.newObjective E d maxi ∧ s.maximize = maxi)
    KeepsSdpObjective ?_ h' hk _ ⟨hgb, hb⟩).2
  rintro s c ⟨c1, c2, c3⟩ ⟨hg, hs1, hs2⟩
  obtain ⟨e1, e2⟩ := SdpState.objective_kept E solver s c hg c1 c2 c3
  exact ⟨SdpState.call_good E solver s c hg, by rw [e1]; exact hs1, by rw [e2]; exact hs2⟩

theorem newObjective_real (E : SdpState.Env Mon) (hsan : E.san = id) (d : List (Mon × Rat)) (maxi : Bool) (hd : ∀ t ∈ d, isClose0 t.2 = true → t.2 = 0) (y : Mon → ℝ) :
    dictR (SdpState.newObjective E d maxi) y = (if maxi then 1 else -1) * (d.map fun t => ((t.2 : Rat) : ℝ) * y t.1).sum := by
  have h1 : dictValF ((SdpState.sanitiseDict E d).map fun t => (t.1, (if maxi then 1 else -1) * t.2)) y = (if maxi then 1 else -1) * (d.map fun t => ((t.2 : Rat) : ℝ) * y t.1).sum := by
    rw [signed_val]
    congr 1
    let E' : State.Env Mon := ⟨E.info, E.san, E.moments, false, [], []⟩
    refine (sanitise_valF E' d y hd).trans ?_
    unfold userValF
    show (d.map fun t => ((t.2 : Rat) : ℝ) * y (E.san t.1)).sum = _
    rw [hsan]
    rfl
  rw [← h1]
  unfold SdpState.newObjective SdpState.setDefault
  generalize ((SdpState.sanitiseDict E d).map fun t => (t.1, (if maxi then 1 else -1) * t.2)) = e
  split
  · rfl
  · rename_i hn
    have hg : State.Dict.get e SdpState.one = none := by simpa using hn
    have := dictValF_set e SdpState.one 0 y
    rw [hg] at this
    show dictValF _ y = _
    simpa using this

section
variable {R : Type} [Ring R] [StarRing R] [Algebra ℝ R] {cols : List (List Nat)} {ch : Choice} {name : Atom → String} {B : Built} {M : InflatedModel I R}
  {solver : SdpState.Args → SdpState.SolverOut} {h h' : List (SdpState.Call Mon)} {a : SdpState.Args} {d : List (Mon × Rat)} {maxi dual : Bool} {δ : ℝ} {v : Rat}

theorem sdp_bound [StarModule ℝ R] (U : Used I cols ch name B M solver (h ++ .setObjective (some d) maxi :: h') a) (hherm : ∀ m ∈ B.env.hermitian, 0 ≤ M.value m)
    (hr : ∀ c ∈ h ++ .setObjective (some d) maxi :: h', c ≠ .reset .values) (hk : ∀ c ∈ h', KeepsSdpObjective c) (hd : ∀ t ∈ d, isClose0 t.2 = true → t.2 = 0)
    (hT : TrustedSdp cols.length B dual δ solver) (hv : (SdpState.run B.env solver (h ++ .setObjective (some d) maxi :: h' ++ [.solve])).result = .solved v) :
    BoundedBy maxi δ (d.map fun t => ((t.2 : Rat) : ℝ) * M.value t.1).sum ((v : Rat) : ℝ) := by
  obtain ⟨ho, hm⟩ := sdp_objective_of B.env solver h h' d maxi U.ok hk
  have hsan : B.env.san = id := by
    obtain ⟨_, _, _, _, _, _, _, _, _, _, henv⟩ := build_some U.setup.built
    rw [henv]
  have hval := newObjective_real B.env hsan d maxi hd M.value
  rw [← ho] at hval
  have ha := U.args
  have hle : (solver a).status = "feasible" → dictR (SdpState.run B.env solver (h ++ .setObjective (some d) maxi :: h')).objective M.value - δ ≤ (((solver a).primal : Rat) : ℝ) := by
    intro hs
    obtain ⟨fl, P, hf, hn, hP, hb⟩ := hT a hs
    cases dual with
    | true =>
      obtain ⟨Z, mi, me, h1, h2⟩ := hb
      exact (sub_le_sub_right (C56_dual_is_bounded_partial U hherm hr hf hn hP h1) δ).trans h2
    | false =>
      obtain ⟨x, G, h1, h2⟩ := C56_primal_is_feasible_partial U hherm hr hf hn hP
      rw [← h2]
      exact hb x G h1
  rw [SdpState.run_snoc] at hv
  clear U ho
  generalize SdpState.run B.env solver (h ++ .setObjective (some d) maxi :: h') = s at *
  have hv : (SdpState.solve B.env solver s).1.result = .solved v := hv
  unfold SdpState.solve at hv
  rw [ha] at hv
  dsimp only at hv
  by_cases hst : (solver a).status = "feasible"
  swap
  · rw [if_neg hst] at hv; simp at hv
  rw [if_pos hst, hm] at hv
  have hv' : v = (solver a).primal * (if maxi then 1 else -1) := by
    injection hv with e
    exact e.symm
  have hle := hle hst
  rw [hval] at hle
  unfold BoundedBy
  subst hv'
  cases maxi with
  | true =>
    simp only [if_true, one_mul, mul_one] at hle ⊢
    linarith
  | false =>
    simp only [Bool.false_eq_true, if_false] at hle ⊢
    push_cast
    linarith

/-- **C65, semidefinite program, operators.** For every model of the inflated network by operators (commuting where the causal structure says so, of any dimension), after a truthful use of the program, the
reported optimum bounds the value of the objective in the model. What is missing: `BoundsSafe` (the default lower bounds are false of some models, see C46), and `reset("values")` (see C43). -/
theorem C65_sdp_bound_operators_partial [StarModule ℝ R] (U : Used I cols ch name B M solver (h ++ .setObjective (some d) maxi :: h') a) (hs : BoundsSafe I B)
    (hr : ∀ c ∈ h ++ .setObjective (some d) maxi :: h', c ≠ .reset .values) (hk : ∀ c ∈ h', KeepsSdpObjective c) (hd : ∀ t ∈ d, isClose0 t.2 = true → t.2 = 0)
    (hT : TrustedSdp cols.length B dual δ solver) (hv : (SdpState.run B.env solver (h ++ .setObjective (some d) maxi :: h' ++ [.solve])).result = .solved v) :
    BoundedBy maxi δ (d.map fun t => ((t.2 : Rat) : ℝ) * M.value t.1).sum ((v : Rat) : ℝ) :=
  sdp_bound U (C46_moments_nonneg M hs) hr hk hd hT hv

end

/-- **C65, semidefinite program, classical models.** For every classical causal model of the graph and any finite alphabets. `reset("values")` is excluded, after which the program solves another objective (see
C43). -/
theorem C65_sdp_bound_classical_partial {Λ : Type} [Fintype Λ] {cols : List (List Nat)} {ch : Choice} {name : Atom → String} {B : Built} (hI : I.Accepted) (hD : WellFormed I.D) (hs : HasSources I.D)
    (M : CausalModel I.D I.outcomes I.priv Λ ℝ) {solver : SdpState.Args → SdpState.SolverOut} {h h' : List (SdpState.Call Mon)} {a : SdpState.Args} {d : List (Mon × Rat)} {maxi dual : Bool} {δ : ℝ} {v : Rat}
    (U : Used I cols ch name B (inflated hI hD hs M) solver (h ++ .setObjective (some d) maxi :: h') a)
    (hr : ∀ c ∈ h ++ .setObjective (some d) maxi :: h', c ≠ .reset .values) (hk : ∀ c ∈ h', KeepsSdpObjective c) (hd : ∀ t ∈ d, isClose0 t.2 = true → t.2 = 0)
    (hT : TrustedSdp cols.length B dual δ solver) (hv : (SdpState.run B.env solver (h ++ .setObjective (some d) maxi :: h' ++ [.solve])).result = .solved v) :
    BoundedBy maxi δ (d.map fun t => ((t.2 : Rat) : ℝ) * (inflated hI hD hs M).value t.1).sum ((v : Rat) : ℝ) :=
  sdp_bound U (fun m _ => classical_nonneg hI _ _ m) hr hk hd hT hv

end Verif.Optimum

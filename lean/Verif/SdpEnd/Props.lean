import Verif.SdpEnd.Solve
import Verif.SdpEnd.Distribution
import Verif.SdpState.Objective
import Verif.SdpSolver.Props
import Verif.SdpSolver.Duality
import Verif.SdpSolver.Cert
/-!
C56 and C57 for the operators of any model of the inflated network: what the semidefinite program and its certificates say is true of the model.
-/
namespace Verif.SdpEnd
open Verif.Common Verif.Canon Verif.Scenario Verif.Components Verif.Moment Verif.MomentMatrix Verif.Normalization
open Verif.State (Dict Mon)
open Verif.EndToEnd (Input)

variable {I : Input} {R : Type} [Ring R] [StarRing R] [Algebra ℝ R]

/-- The calls that tell the program only what is true of the model: `set_distribution` with the distribution of the model, and other calls with true values and bounds. -/
inductive Truthful (I : Input) (B : Built) (M : InflatedModel I R) : SdpState.Call Mon → Prop
  | distribution {P : List Nat → Rat} {lpi shared : Bool} {c : SdpState.Call Mon} (hP : M.Realises P) (hl : lpi = true → NotTiny I B P)
      (hc : setDistribution I B P lpi shared = some c) : Truthful I B M c
  | direct {c : SdpState.Call Mon} (h : CallTrue B.env M.moment c) : Truthful I B M c

theorem truthful_callTrue {cols : List (List Nat)} {ch : Choice} {name : Atom → String} {B : Built} (hV : Setup I cols ch name B) (M : InflatedModel I R) {c : SdpState.Call Mon}
    (hc : Truthful I B M c) : CallTrue B.env M.moment c := by
  cases hc with
  | direct h => exact h
  | distribution hP hl hc =>
    obtain ⟨c', h1, h2⟩ := setDistribution_true M hV hP _ _ hl
    rw [hc] at h1
    rw [Option.some.inj h1]
    exact h2

/-- **C56, `set_distribution` accepts every distribution of a model**, and all the values it assigns to moments are those of the model. -/
theorem C56_distribution_accepted {cols : List (List Nat)} {ch : Choice} {name : Atom → String} {B : Built} (hV : Setup I cols ch name B) (M : InflatedModel I R)
    {P : List Nat → Rat} (hP : M.Realises P) (lpi shared : Bool) :
    ∃ vals, setDistribution I B P lpi shared = some (.setValues vals lpi shared) ∧ ∀ t ∈ vals, ∃ x, t.2 = some x ∧ M.value t.1 = ((x : Rat) : ℝ) := by
  obtain ⟨c, h1, h2⟩ := setDistribution_true M hV hP false shared (by simp)
  unfold setDistribution at h1
  obtain ⟨v, hv, rfl⟩ := Option.map_eq_some_iff.1 h1
  refine ⟨v, by simp [setDistribution, hv], ?_⟩
  intro t ht
  have hs : ∃ x, t.2 = some x := by
    have hf := List.forall₂_iff_get.1 (Verif.LpSolver.mapM_forall₂ hv)
    obtain ⟨i, hi, rfl⟩ := List.getElem_of_mem ht
    obtain ⟨w, _, e⟩ := Option.map_eq_some_iff.1 (hf.2 i (by rw [hf.1]; exact hi) hi)
    have e' : _ = v[i] := e
    exact ⟨w, by rw [← e']⟩
  obtain ⟨x, hx⟩ := hs
  exact ⟨x, hx, (h2.1 t ht x hx).1⟩

/-- The program has been set up and used truthfully: nothing in the history raised, no linearised constraint relates a moment to one that is itself determined. -/
structure Used (I : Input) (cols : List (List Nat)) (ch : Choice) (name : Atom → String) (B : Built) (M : InflatedModel I R) (solver : SdpState.Args → SdpState.SolverOut)
    (h : List (SdpState.Call Mon)) (a : SdpState.Args) : Prop where
  setup : Setup I cols ch name B
  truthful : ∀ c ∈ h, Truthful I B M c
  ok : SdpState.Ok B.env solver h
  args : SdpState.solverArgs B.env (SdpState.run B.env solver h) = some a
  separated : Separated a

section
variable {cols : List (List Nat)} {ch : Choice} {name : Atom → String} {B : Built} {M : InflatedModel I R} {solver : SdpState.Args → SdpState.SolverOut}
  {h : List (SdpState.Call Mon)} {a : SdpState.Args}

theorem Used.solves [StarModule ℝ R] (U : Used I cols ch name B M solver h a) (hherm : ∀ m ∈ B.env.hermitian, 0 ≤ M.value m) :
    (solverInput cols.length B a).Solves false (values M) 0 :=
  SdpEnd.solves M U.setup hherm solver h (fun c hc => truthful_callTrue U.setup M (U.truthful c hc)) U.args

theorem Used.input_ok (U : Used I cols ch name B M solver h a) : (solverInput cols.length B a).Ok :=
  SdpEnd.input_ok U.setup (fun d hd => (equalities_hold M U.setup.columns U.setup.copies U.setup.computed U.setup.built U.setup.equalities d hd).1) solver h U.ok U.args U.separated

/-- The value of the objective given to the solver. -/
theorem objective_lin (U : Used I cols ch name B M solver h a) : SdpSolver.lin (solverInput cols.length B a).objective (values M) = dictR (SdpState.run B.env solver h).processed M.value := by
  have ha := U.args
  unfold SdpState.solverArgs at ha
  split at ha
  swap
  · simp at ha
  have ha := Option.some.inj ha
  subst ha
  unfold SdpSolver.lin solverInput dictR
  dsimp only
  rw [List.map_map]
  rfl

/-- The objective given to the solver has the value of the user's objective, as long as `reset("values")` is not used (see C43). -/
theorem objective_value [StarModule ℝ R] (U : Used I cols ch name B M solver h a) (hherm : ∀ m ∈ B.env.hermitian, 0 ≤ M.value m) (hr : ∀ c ∈ h, c ≠ .reset .values) :
    SdpSolver.lin (solverInput cols.length B a).objective (values M) = dictR (SdpState.run B.env solver h).objective M.value := by
  rw [objective_lin U]
  refine faithful_real (SdpState.C43_sdp_objective_partial B.env solver h U.ok hr) M.value ?_ ?_
  · show (M.moment []).re = 1
    simp [InflatedModel.moment]
  · intro m v hm
    exact ((history_holds M U.setup hherm solver h fun c hc => truthful_callTrue U.setup M (U.truthful c hc)).values.known m v hm).1

/-- **C56, the primal problem**: the problem built for MOSEK has a feasible point at which its objective is the value of the user's objective in the model. So a solver that
answers "infeasible" is wrong, and an upper bound on the optimum is an upper bound on the objective in every model. What is missing: the code also bounds every moment which it finds to
be hermitian by zero from below; that this is true of the model is a hypothesis (C46 shows that there are quantum models of which it is false). -/
theorem C56_primal_is_feasible_partial [StarModule ℝ R] (U : Used I cols ch name B M solver h a) (hherm : ∀ m ∈ B.env.hermitian, 0 ≤ M.value m)
    (hr : ∀ c ∈ h, c ≠ .reset .values) {fl : SdpSolver.Flags (Option Mon)} (hf : fl.feas = false) (hn : fl.nonneg = false)
    {P : SdpSolver.Prep (Option Mon) ℝ cols.length} (hP : SdpSolver.prep fl (solverInput cols.length B a) = some P) :
    ∃ x G, P.Primal false x G ∧ P.primalValue x = dictR (SdpState.run B.env solver h).objective M.value := by
  obtain ⟨_, h2⟩ := SdpSolver.C32_same_solutions U.input_ok hf (by simp [hn]) hP
  rw [hn] at h2
  obtain ⟨G, hG⟩ := (h2 (values M)).1.2 ⟨values M, U.solves hherm, fun _ _ => rfl⟩
  exact ⟨values M, G, hG, by rw [(h2 (values M)).2 (values M) (U.solves hherm) fun _ _ => rfl, objective_value U hherm hr]⟩

/-- **C56, the dual problem**: every feasible point of the dual bounds the user's objective in the model. -/
theorem C56_dual_is_bounded_partial [StarModule ℝ R] (U : Used I cols ch name B M solver h a) (hherm : ∀ m ∈ B.env.hermitian, 0 ≤ M.value m)
    (hr : ∀ c ∈ h, c ≠ .reset .values) {fl : SdpSolver.Flags (Option Mon)} (hf : fl.feas = false) (hn : fl.nonneg = false)
    {P : SdpSolver.Prep (Option Mon) ℝ cols.length} (hP : SdpSolver.prep fl (solverInput cols.length B a) = some P)
    {Z : SdpSolver.Mat cols.length ℝ} {mi me : Nat → ℝ} (hD : P.Dual false Z mi me) :
    dictR (SdpState.run B.env solver h).objective M.value ≤ P.dualValue false Z mi me := by
  rw [← objective_value U hherm hr]
  exact SdpSolver.C32_dual_bounds_objective U.input_ok hf hP (by rw [hn]; exact hD) (by rw [hn]; exact U.solves hherm)

theorem masks_ne_nil (n : Nat) (B : Built) (a : SdpState.Args) : (solverInput n B a).masks ≠ [] := by
  show masks n B ≠ []
  unfold masks
  simp

/-- **C56, feasibility as optimisation**: the largest `λ` with `Γ - λ·1 ⪰ 0` is not negative, in the primal and in the dual problem. -/
theorem C56_feasibility_not_negative_partial [StarModule ℝ R] (U : Used I cols ch name B M solver h a) (hherm : ∀ m ∈ B.env.hermitian, 0 ≤ M.value m)
    {fl : SdpSolver.Flags (Option Mon)} (hf : fl.feas = true) (hn : fl.nonneg = false) (hfr : fl.Fresh (solverInput cols.length B a))
    {P : SdpSolver.Prep (Option Mon) ℝ cols.length} (hP : SdpSolver.prep fl (solverInput cols.length B a) = some P) :
    (∃ x G, P.Primal false x G ∧ P.primalValue x = 0) ∧
      ∀ (Z : SdpSolver.Mat cols.length ℝ) (mi me : Nat → ℝ), P.Dual false Z mi me → 0 ≤ P.dualValue true Z mi me := by
  constructor
  · obtain ⟨lam, h1, h2, h3, h4⟩ := SdpSolver.C32_feasibility_as_optimisation U.input_ok hf hfr (masks_ne_nil _ _ _) (by simp [hn]) hP
    rw [hn] at h4
    set x : Option Mon → ℝ := fun y => if y = lam then 0 else values M y with hx
    have hxl : x lam = 0 := by simp [hx]
    obtain ⟨h5, h6⟩ := h4 x
    obtain ⟨G, hG⟩ := h5.2 ⟨by simp, values M, by rw [hxl]; exact U.solves hherm, fun y hy hne => by simp [hx, hne]⟩
    exact ⟨x, G, hG, by rw [h6, hxl]⟩
  · intro Z mi me hD
    exact SdpSolver.C32_dual_bounds_feasibility U.input_ok hf hfr (masks_ne_nil _ _ _) hP hD (U.solves hherm)

end

end Verif.SdpEnd

import Verif.Search.Stateless
import Verif.Optimize.Bisect
import Verif.Optimize.Dual
import Verif.LpSolver.RelaxDual
import Verif.EndToEnd.CertProps
import Verif.Theory.CertProps
import Verif.QuantumNet.Props
import Verif.Views.End
/-
C64: `max_within_feasible` on a linear program. The value it returns is compared with the models of the causal structure (classical models, physical theories, quantum networks), for the program that the
code builds and the problem that the code hands to MOSEK.
-/
namespace Verif.Search
open Verif.Common Verif.Moment Verif.State Verif.Optimize Verif.Scenario
open Verif.Orbits (flatnonzero)
open Verif.EndToEnd (Input ClassicalModel valF columnsF FeasibleIn dictValF lpEnv_some CallTrue NoTiny args_feasible run_holds toSolver toSolver_ok toSolver_solves toVec column_value rows_hold setValues_plain
  toRow_specF)
open Verif.EndToEnd.ClassicalModel (Capacity)
open Verif.LpSolver (Flags buildTask prepare Prep Returned certificate dictAt slackVec dense certData)
open Verif.Theory (InflatedTheory)

variable {I : Input} {F : Type} [Field F] [LinearOrder F]

/-! ### What is assumed of the solver -/

/-- The options with which the search calls the solver: `feas_as_optim=True` becomes `relax_inequalities=True` (InflationLP.py 596-601, 611-615). -/
def searchFlags (dual nonneg : Bool) : Flags := ⟨dual, nonneg, false, true⟩

/-- The objective value of a successful call is right up to `δ`: in the primal form it is, up to `δ`, an upper bound on the task; in the dual form (a minimisation) it is, up to `δ`, at least the value
at a point of the task. -/
def Trusted (F : Type) [Field F] [LinearOrder F] (n : Nat) (dual nonneg : Bool) (δ : F) (solver : Args → SolverOut) : Prop :=
  ∀ a, (solver a).success = true → ∃ t : LpSolver.Task F, buildTask (searchFlags dual nonneg) (toSolver n a) = some t ∧
    if dual then ∃ y, t.Feasible y ∧ t.value y - δ ≤ (((solver a).primal : Rat) : F)
    else ∀ z, t.Feasible z → t.value z - δ ≤ (((solver a).primal : Rat) : F)

/-- The certificate is the one of C31: the dictionary made from multipliers that the solver may return for the task, with the names of the moments; no entry that is dropped because it is within 10⁻⁸ of
zero is different from zero. -/
def TrustedCertificate (F : Type) [Field F] [LinearOrder F] (E : Env Mon) (n : Nat) (dual nonneg : Bool) (cert : Args → Option (List (String × Rat))) : Prop :=
  ∀ a c, cert a = some c → ∃ (p : Prep F) (y : List F), prepare (searchFlags dual nonneg) (toSolver n a) = some p ∧
    Returned (searchFlags dual nonneg) (toSolver n a) (fun j => (slackVec p.con.cols : List F).getD j 0) y ∧
    (∀ j, j < n → LpSolver.isClose0 ((certData (searchFlags dual nonneg) p y).getD j 0) = true → (certData (searchFlags dual nonneg) p y).getD j 0 = 0) ∧
    c.map (fun t => (t.1, ((t.2 : Rat) : F))) =
      (certificate (searchFlags dual nonneg) p n y).map fun t => (Views.nameOf E (E.monomials.getD t.1 one), t.2)

/-! ### What it means for a model to explain a value of the parameter -/

/-- The values of the symbolic expressions at `v` are those that the values `val` of the atoms give to the moments. -/
def Agrees (E : Env Mon) (val : Atom → F) (sym : List (Mon × Expr)) (v : Rat) : Prop := ∀ t ∈ sym, valF val (E.san t.1) = ((t.2.value v : Rat) : F)

/-- With linearised constraints, no moment of the model is tiny but different from zero. -/
def Clear (E : Env Mon) (val : Atom → F) (o : Options) : Prop := o.lpi = true → NoTiny E val

/-- The user has set no bounds and no objective. -/
structure Bare (s : LpState) : Prop where
  lower : s.lower = []
  upper : s.upper = []
  objective : s.objective = []
  maximize : s.maximize = true

/-- What the proofs use of a model: its values satisfy the constraints of the program. -/
structure Fits (I : Input) (E : Env Mon) (val : Atom → F) : Prop where
  eqs : ∀ r ∈ E.minEq, dictValF r (columnsF E (valF val)) = 0
  ineqs : ∀ r ∈ E.minIneq, 0 ≤ dictValF r (columnsF E (valF val))
  nonneg : ∀ i, i < I.columns.length → 0 ≤ columnsF E (valF val) i

variable [IsStrictOrderedRing F]

theorem fits_classical {Λ : Type} [Fintype Λ] (hI : I.Accepted) (M : ClassicalModel I.scenario I.observed Λ F) (hcap : ∀ v ∈ I.columns, Capacity I.scenario (flatnonzero v))
    {name : Atom → String} {E : Env Mon} (hE : I.lpEnv name = some E) : Fits I E M.event := by
  obtain ⟨r1, r2⟩ := rows_hold hI M hcap hE
  refine ⟨r1, r2, fun i hi => ?_⟩
  have e : columnsF E (valF M.event) i = M.vec (I.columns.getD i []) := by
    obtain ⟨_, _, _, _, _, _, rfl⟩ := lpEnv_some hE
    exact column_value hI M hi (hcap _ (by rw [List.getD_eq_getElem _ _ hi]; exact List.getElem_mem _))
  rw [e]
  exact M.event_nonneg _

theorem fits_theory (hI : I.Accepted) (T : InflatedTheory I F) (hcap : ∀ v ∈ I.columns, Capacity I.scenario (flatnonzero v))
    {name : Atom → String} {E : Env Mon} (hE : I.lpEnv name = some E) : Fits I E T.event := by
  obtain ⟨r1, r2⟩ := T.rows_hold hI hcap hE
  refine ⟨r1, r2, fun i hi => ?_⟩
  obtain ⟨g1, g2⟩ := T.column_event hI hcap hE hi
  rw [g1]
  exact g2

theorem init_bare {K : Type} (E : Env K) (hsup : E.supports = false) : Bare (init E) := by
  have h := setValues_like E hsup [] false false (setObjective E none true (setUpper E none (setLower E none ⟨[], [], [], [], [], true, [], [], false, .notSolved, none, none⟩)))
  exact ⟨h.lower, h.upper, h.objective, h.maximize⟩

theorem Bare.like {s s' : LpState} (h : Bare s) (h' : Bare s') : Like s s' :=
  ⟨h.lower.trans h'.lower.symm, h.upper.trans h'.upper.symm, h.objective.trans h'.objective.symm, h.maximize.trans h'.maximize.symm⟩

/-- Calls that leave bounds and objective alone. -/
def leavesBare {K : Type} : Call K → Bool
  | .setLower (some _) => false
  | .setUpper (some _) => false
  | .setObjective (some _) _ => false
  | .setObjective none m => m
  | _ => true

omit [LinearOrder F] [IsStrictOrderedRing F] [Field F] in
/-- After any history of calls without bounds and objective the search starts without bounds and objective. -/
theorem run_bare {K : Type} (E : Env K) (hsup : E.supports = false) (solver : Args → SolverOut) (h : List (Call K)) (hh : ∀ c ∈ h, leavesBare c = true) : Bare (run E solver h) := by
  refine fold_induction E solver Bare (fun c => leavesBare c = true) ?_ h hh (init E) (init_bare E hsup)
  intro s c hc hs
  have key : ∀ {s' : LpState}, Like s' s → Bare s' := fun h => ⟨h.lower.trans hs.lower, h.upper.trans hs.upper, h.objective.trans hs.objective, h.maximize.trans hs.maximize⟩
  cases c with
  | setValues v lpi o => exact key (setValues_like E hsup v lpi o s)
  | updateValues v lpi o =>
    refine key ?_
    show Like (updateValues E v lpi o s) s
    unfold updateValues cleanup
    dsimp only
    rw [hsup]
    split
    · exact ⟨rfl, rfl, rfl, rfl⟩
    · split <;> exact ⟨rfl, rfl, rfl, rfl⟩
  | setObjective o m =>
    cases o with
    | none =>
      have hm : m = true := hc
      subst hm
      exact ⟨hs.lower, hs.upper, rfl, rfl⟩
    | some d => cases hc
  | setLower b =>
    cases b with
    | none => exact ⟨rfl, hs.upper, hs.objective, hs.maximize⟩
    | some d => cases hc
  | setUpper b =>
    cases b with
    | none => exact ⟨hs.lower, rfl, hs.objective, hs.maximize⟩
    | some d => cases hc
  | setExtraEq l => exact ⟨hs.lower, hs.upper, hs.objective, hs.maximize⟩
  | setExtraIneq l => exact ⟨hs.lower, hs.upper, hs.objective, hs.maximize⟩
  | reset w =>
    cases w <;> first
      | exact ⟨hs.lower, hs.upper, hs.objective, hs.maximize⟩
      | exact ⟨rfl, hs.upper, hs.objective, hs.maximize⟩
      | exact ⟨hs.lower, rfl, hs.objective, hs.maximize⟩
      | exact ⟨rfl, rfl, hs.objective, hs.maximize⟩
      | exact ⟨hs.lower, hs.upper, rfl, rfl⟩
      | exact ⟨rfl, rfl, rfl, rfl⟩
  | solve => exact key (solve_like E solver s)
  | readEqByName =>
    obtain ⟨c, hc⟩ := eqByName_fst E s
    refine key ?_
    show Like (eqByName E s).2 s
    rw [hc]; exact ⟨rfl, rfl, rfl, rfl⟩
  | readIneqByName =>
    obtain ⟨c, hc⟩ := ineqByName_fst E s
    refine key ?_
    show Like (ineqByName E s).2 s
    rw [hc]; exact ⟨rfl, rfl, rfl, rfl⟩
  | prepareArguments b =>
    obtain ⟨c, c', hc⟩ := argsByName_fst E b s
    refine key ?_
    show Like (argsByName E b s).2.2 s
    rw [hc]; exact ⟨rfl, rfl, rfl, rfl⟩

omit [LinearOrder F] [IsStrictOrderedRing F] [Field F] in
theorem env_san {name : Atom → String} {E : Env Mon} (hE : I.lpEnv name = some E) : E.supports = false ∧ (∀ m, E.san m = m) ∧ E.monomials = I.monomials := by
  obtain ⟨_, _, _, _, _, _, rfl⟩ := lpEnv_some hE
  exact ⟨rfl, fun _ => rfl, rfl⟩

theorem numerical_true {E : Env Mon} {val : Atom → F} {sym : List (Mon × Expr)} {v : Rat} (h : Agrees E val sym v) :
    ∀ t ∈ makeNumerical sym v, ∀ x, t.2 = some x → valF val (E.san t.1) = ((x : Rat) : F) := by
  intro t ht x hx
  obtain ⟨u, hu, rfl⟩ := List.mem_map.1 ht
  rw [← Option.some.inj hx]
  exact h u hu

theorem setValues_args_run {E : Env Mon} (hsup : E.supports = false) (solver : Args → SolverOut) (vals : List (Mon × Option Rat)) (lpi only : Bool) {s : LpState} (hs : Bare s) :
    solverArgs E (setValues E vals lpi only s) = solverArgs E (run E solver [.setValues vals lpi only]) :=
  setValues_solverArgs E hsup vals lpi only (hs.like (init_bare E hsup))

/-- The arguments prepared in a bare state have neither bounds nor objective. -/
theorem bare_args {E : Env Mon} (hsup : E.supports = false) (vals : List (Mon × Option Rat)) (lpi only : Bool) {s : LpState} (hs : Bare s) {a : Args}
    (ha : solverArgs E (setValues E vals lpi only s) = some a) : a.lower = [] ∧ a.upper = [] ∧ a.objective = [] := by
  have hl := setValues_like E hsup vals lpi only s
  obtain ⟨_, _, _, _, _, _, h4, _, h6, h7, _, _⟩ := solverArgs_some E _ a ha
  rw [hl.objective, hs.objective] at h4
  rw [hl.lower, hs.lower] at h6
  rw [hl.upper, hs.upper] at h7
  simp only [toRow, List.mapM_nil, Option.pure_def, Option.some.injEq] at h4 h6 h7
  exact ⟨h6.symm, h7.symm, h4.symm⟩

/-- If a model agrees with the values at `v`, the objective value that the program reports is not below `-δ`. -/
theorem objective_not_negative {name : Atom → String} {E : Env Mon} (hE : I.lpEnv name = some E) {solver : Args → SolverOut} {dual nonneg : Bool} {δ : F}
    (hS : Trusted F I.columns.length dual nonneg δ solver) {s : LpState} (hs : Bare s) {val : Atom → F} (hf : Fits I E val) {sym : List (Mon × Expr)} {v : Rat} (hv : Agrees E val sym v)
    {o : Options} (hl : Clear E val o) {x : Rat} (hx : objectiveOf (solvedAt E solver sym o.lpi o.only v s) = some x) : -δ ≤ ((x : Rat) : F) := by
  obtain ⟨hsup, -, -⟩ := env_san hE
  have hmax : (setValues E (makeNumerical sym v) o.lpi o.only s).maximize = true := (setValues_like E hsup _ _ _ s).maximize.trans hs.maximize
  have hres := setValues_result E hsup (makeNumerical sym v) o.lpi o.only s
  unfold solvedAt solve at hx
  split at hx
  · unfold objectiveOf at hx
    rw [hres] at hx
    cases hx
  · rename_i a ha
    unfold objectiveOf at hx
    dsimp only at hx
    by_cases hsuc : (solver a).success = true
    · rw [if_pos hsuc, hmax, if_pos rfl, mul_one] at hx
      have hx : (solver a).primal = x := Option.some.inj hx
      obtain ⟨b1, b2, b3⟩ := bare_args hsup _ _ _ hs ha
      rw [setValues_args_run hsup solver _ _ _ hs] at ha
      have hok := toSolver_ok (F := F) hE solver _ ha
      have hfe := args_feasible E _ (run_good E solver _) val (run_holds E hsup solver val [.setValues (makeNumerical sym v) o.lpi o.only] (by
        intro c hc
        rw [List.mem_singleton] at hc
        subst hc
        exact ⟨numerical_true hv, hl⟩)) a ha hf.eqs hf.ineqs
      obtain ⟨t, ht, hb⟩ := hS a hsuc
      rw [hx] at hb
      cases dual with
      | true =>
        rw [if_pos rfl] at hb
        obtain ⟨y, hy, hyx⟩ := hb
        have h0 : 0 ≤ t.value y := LpSolver.C30_dual_relaxed_inequalities hok (by simp [LpSolver.NoBounds, toSolver, toVec, b1, b2]) (by simp [toSolver, toVec, b3]) rfl rfl ht
          (toSolver_solves hfe _ hf.nonneg) hy
        linarith
      | false =>
        rw [if_neg (by simp)] at hb
        obtain ⟨z, hz, hz0⟩ := (LpSolver.C30_relaxed_inequalities hok rfl rfl rfl ht).1 ⟨_, toSolver_solves hfe _ hf.nonneg⟩
        have := hb z hz
        linarith
    · rw [if_neg hsuc] at hx
      cases hx

/-! ### Bisection -/

/-- The value returned by `max_within_feasible(method="bisection")`, with or without the certificate; `none`: it raised. -/
def found {γ : Type} (r : Outcome Rat γ × LpState) : Option Rat := r.1.crit

theorem maxBisect_some {γ : Type} {E : Env Mon} {solver : Args → SolverOut} {cert : Args → Option (List γ)} {sym : List (Mon × Expr)} {o : Options} {s : LpState} {x : Rat}
    (h : found (maxBisect E solver cert sym o s) = some x) : found (searchBisect E solver cert sym o s) = some x := by
  unfold maxBisect at h
  split at h
  · exact h
  · cases h

/-- The core of the bisection theorems: at or just above the returned value there is a parameter which no model explains. -/
theorem bisect_core {γ : Type} {name : Atom → String} {E : Env Mon} (hE : I.lpEnv name = some E) {solver : Args → SolverOut} {cert : Args → Option (List γ)} {dual nonneg : Bool} {δ : F}
    {sym : List (Mon × Expr)} {o : Options} (hS : Trusted F I.columns.length dual nonneg δ solver) (hp : 0 < o.precision) (hδ : δ < ((o.precision / 2048 : Rat) : F)) (hb : o.b0 < o.b1)
    {s : LpState} (hs : Bare s) {x : Rat} (h : found (maxBisect E solver cert sym o s) = some x) :
    o.b0 ≤ x ∧ x ≤ o.b1 ∧ ∃ u, (u = x ∨ x < u ∧ u - x < o.xtol + o.rtol * |x|) ∧ u ≤ o.b1 ∧ ∀ val : Atom → F, Fits I E val → Clear E val o → ¬ Agrees E val sym u := by
  obtain ⟨hsup, -, -⟩ := env_san hE
  have h := maxBisect_some h
  have hne : (searchBisect E solver cert sym o s).1 ≠ .raised := by
    intro e
    unfold found at h
    rw [e] at h
    cases h
  obtain ⟨h1, -⟩ := searchBisect_spec E hsup solver cert sym o s rfl hne
  have h2 : (maximizeViaBisect (oracle E solver cert sym o s) o.b0 o.b1 o.precision o.xtol o.rtol o.maxiter o.returnLast).crit = some x := by rw [h1]; exact h
  obtain ⟨g1, g2, g3⟩ := C37_brackets_sign_change hp hb h2
  have key : ∀ u, (oracle E solver cert sym o s).objective u ≤ -(o.precision / 2048) → ∀ val : Atom → F, Fits I E val → Clear E val o → ¬ Agrees E val sym u := by
    intro u hu val hf hl hv
    have hpos : 0 < o.precision / 2048 := by positivity
    cases hx : objectiveOf (solvedAt E solver sym o.lpi o.only u s) with
    | none =>
      simp only [oracle, hx, Option.getD_none] at hu
      linarith
    | some w =>
      simp only [oracle, hx, Option.getD_some] at hu
      have := objective_not_negative hE hS hs hf hv hl hx
      have hc : ((w : Rat) : F) ≤ ((-(o.precision / 2048) : Rat) : F) := Rat.cast_le.2 hu
      rw [Rat.cast_neg] at hc
      linarith
  refine ⟨g1, g2, ?_⟩
  rcases g3 with g3 | ⟨lo, hi, _, _, a3, a4, _, a6, _, a8⟩
  · exact ⟨x, .inl rfl, g2, key x (le_of_eq g3)⟩
  · exact ⟨hi, .inr ⟨a3, a6⟩, a4, key hi (le_of_lt a8)⟩

/-- **C64, what bisection returns is excluded.** The search starts in any state without bounds and objective. If it returns `x`, then there is a parameter `u` equal to `x` or above it by less than the
tolerance for which no classical model of the causal structure, over any finite alphabet, has the moments that the symbolic values prescribe. -/
theorem C64_bisection_excludes_classical {γ : Type} (hI : I.Accepted) (hcap : ∀ v ∈ I.columns, Capacity I.scenario (flatnonzero v)) {name : Atom → String} {E : Env Mon} (hE : I.lpEnv name = some E)
    {solver : Args → SolverOut} {cert : Args → Option (List γ)} {dual nonneg : Bool} {δ : F} {sym : List (Mon × Expr)} {o : Options} (hS : Trusted F I.columns.length dual nonneg δ solver)
    (hp : 0 < o.precision) (hδ : δ < ((o.precision / 2048 : Rat) : F)) (hb : o.b0 < o.b1) {s : LpState} (hs : Bare s) {x : Rat} (h : found (maxBisect E solver cert sym o s) = some x) :
    o.b0 ≤ x ∧ x ≤ o.b1 ∧ ∃ u, (u = x ∨ x < u ∧ u - x < o.xtol + o.rtol * |x|) ∧ u ≤ o.b1 ∧
      ∀ (Λ : Type) [Fintype Λ] (M : ClassicalModel I.scenario I.observed Λ F), Clear E M.event o → ¬ Agrees E M.event sym u := by
  obtain ⟨g1, g2, u, g3, g4, g5⟩ := bisect_core hE hS hp hδ hb hs h
  exact ⟨g1, g2, u, g3, g4, fun Λ _ M hc => g5 _ (fits_classical hI M hcap hE) hc⟩

/-- **C64, bisection does not miss classical models.** If every parameter from the lower end of the interval up to `v` is explained by a classical model, the value returned is not below `v` by the
tolerance or more. -/
theorem C64_bisection_not_below_classical {γ : Type} (hI : I.Accepted) (hcap : ∀ v ∈ I.columns, Capacity I.scenario (flatnonzero v)) {name : Atom → String} {E : Env Mon}
    (hE : I.lpEnv name = some E) {solver : Args → SolverOut} {cert : Args → Option (List γ)} {dual nonneg : Bool} {δ : F} {sym : List (Mon × Expr)} {o : Options}
    (hS : Trusted F I.columns.length dual nonneg δ solver) (hp : 0 < o.precision) (hδ : δ < ((o.precision / 2048 : Rat) : F)) (hb : o.b0 < o.b1) (hxt : 0 ≤ o.xtol) (hrt : 0 ≤ o.rtol)
    {s : LpState} (hs : Bare s) {x v : Rat} (h : found (maxBisect E solver cert sym o s) = some x)
    (hm : ∀ u, o.b0 ≤ u → u ≤ v → ∃ (Λ : Type) (_ : Fintype Λ) (M : ClassicalModel I.scenario I.observed Λ F), Clear E M.event o ∧ Agrees E M.event sym u) :
    v - (o.xtol + o.rtol * |x|) < x := by
  obtain ⟨g1, g2, u, g3, g4, g5⟩ := C64_bisection_excludes_classical hI hcap hE hS hp hδ hb hs h
  have ht : 0 ≤ o.xtol + o.rtol * |x| := add_nonneg hxt (mul_nonneg hrt (abs_nonneg _))
  have hu : v < u := by
    by_contra hc
    obtain ⟨Λ, i, M, m1, m2⟩ := hm u (by rcases g3 with rfl | ⟨g3, -⟩ <;> linarith) (not_lt.1 hc)
    exact g5 Λ M m1 m2
  rcases g3 with rfl | ⟨_, g3⟩ <;> linarith

/-- **C64, the same for physical theories** (nonfanout inflations: quantum mechanics and beyond). -/
theorem C64_bisection_excludes_theories {γ : Type} (hI : I.Accepted) (hcap : ∀ v ∈ I.columns, Capacity I.scenario (flatnonzero v)) {name : Atom → String} {E : Env Mon} (hE : I.lpEnv name = some E)
    {solver : Args → SolverOut} {cert : Args → Option (List γ)} {dual nonneg : Bool} {δ : F} {sym : List (Mon × Expr)} {o : Options} (hS : Trusted F I.columns.length dual nonneg δ solver)
    (hp : 0 < o.precision) (hδ : δ < ((o.precision / 2048 : Rat) : F)) (hb : o.b0 < o.b1) {s : LpState} (hs : Bare s) {x : Rat} (h : found (maxBisect E solver cert sym o s) = some x) :
    o.b0 ≤ x ∧ x ≤ o.b1 ∧ ∃ u, (u = x ∨ x < u ∧ u - x < o.xtol + o.rtol * |x|) ∧ u ≤ o.b1 ∧
      ∀ T : InflatedTheory I F, Clear E T.event o → ¬ Agrees E T.event sym u := by
  obtain ⟨g1, g2, u, g3, g4, g5⟩ := bisect_core hE hS hp hδ hb hs h
  exact ⟨g1, g2, u, g3, g4, fun T hc => g5 _ (fits_theory hI T hcap hE) hc⟩

/-- **C64, bisection does not miss physical theories.** -/
theorem C64_bisection_not_below_theories {γ : Type} (hI : I.Accepted) (hcap : ∀ v ∈ I.columns, Capacity I.scenario (flatnonzero v)) {name : Atom → String} {E : Env Mon}
    (hE : I.lpEnv name = some E) {solver : Args → SolverOut} {cert : Args → Option (List γ)} {dual nonneg : Bool} {δ : F} {sym : List (Mon × Expr)} {o : Options}
    (hS : Trusted F I.columns.length dual nonneg δ solver) (hp : 0 < o.precision) (hδ : δ < ((o.precision / 2048 : Rat) : F)) (hb : o.b0 < o.b1) (hxt : 0 ≤ o.xtol) (hrt : 0 ≤ o.rtol)
    {s : LpState} (hs : Bare s) {x v : Rat} (h : found (maxBisect E solver cert sym o s) = some x)
    (hm : ∀ u, o.b0 ≤ u → u ≤ v → ∃ T : InflatedTheory I F, Clear E T.event o ∧ Agrees E T.event sym u) :
    v - (o.xtol + o.rtol * |x|) < x := by
  obtain ⟨g1, g2, u, g3, g4, g5⟩ := C64_bisection_excludes_theories hI hcap hE hS hp hδ hb hs h
  have ht : 0 ≤ o.xtol + o.rtol * |x| := add_nonneg hxt (mul_nonneg hrt (abs_nonneg _))
  have hu : v < u := by
    by_contra hc
    obtain ⟨T, m1, m2⟩ := hm u (by rcases g3 with rfl | ⟨g3, -⟩ <;> linarith) (not_lt.1 hc)
    exact g5 T m1 m2
  rcases g3 with rfl | ⟨_, g3⟩ <;> linarith

/-- **C64, distributions.** If the symbolic values are those which `set_distribution` would compute for a family `P` of distributions, a classical model that generates `P v` explains `v`. -/
theorem C64_distributions_agree {Λ : Type} [Fintype Λ] (hI : I.Accepted) (M : ClassicalModel I.scenario I.observed Λ F) {name : Atom → String} {E : Env Mon} (hE : I.lpEnv name = some E)
    {P : Rat → List Nat → Rat} {sym : List (Mon × Expr)} {v : Rat} (hsym : I.distributionValues (P v) = some (makeNumerical sym v)) (hP : I.Realises M (P v)) : Agrees E M.event sym v := by
  intro t ht
  obtain ⟨vals, h1, h2⟩ := Verif.EndToEnd.distributionValues_sound hI M hP
  rw [hsym] at h1
  obtain rfl := Option.some.inj h1
  rw [(env_san hE).2.1]
  exact h2 (t.1, some (t.2.value v)) (List.mem_map.2 ⟨t, ht, rfl⟩) _ rfl

/-- **C64, distributions of quantum networks.** -/
theorem C64_quantum_distributions_agree {A : Type} [Fintype A] [DecidableEq A] (hI : I.Accepted) (N : QuantumNet.QuantumNetwork I A) {name : Atom → String} {E : Env Mon} (hE : I.lpEnv name = some E)
    {P : Rat → List Nat → Rat} {sym : List (Mon × Expr)} {v : Rat} (hsym : I.distributionValues (P v) = some (makeNumerical sym v)) (hP : N.Generates fun t => ((P v t : Rat) : ℂ)) :
    ∃ T : InflatedTheory I ℝ, Agrees E T.event sym v := by
  have hg := QuantumNet.generates_of_network N hI hP
  refine ⟨Theory.ofQuantum (QuantumNet.inflate N hI), ?_⟩
  intro t ht
  obtain ⟨vals, h1, h2⟩ := (Theory.ofQuantum (QuantumNet.inflate N hI)).distributionValues_sound hI hg
  rw [hsym] at h1
  obtain rfl := Option.some.inj h1
  rw [(env_san hE).2.1]
  obtain ⟨x, hx, e⟩ := h2 (t.1, some (t.2.value v)) (List.mem_map.2 ⟨t, ht, rfl⟩)
  rw [e]
  rw [← Option.some.inj hx]

/-! ### What earlier calls leave behind -/

/-- **C64, the search forgets earlier values and extra constraints**: what the program answers at a parameter depends on the state before the search only through the bounds, the objective and its
direction; and the search changes none of these. -/
theorem C64_search_is_stateless {γ : Type} {name : Atom → String} {E : Env Mon} (hE : I.lpEnv name = some E) (solver : Args → SolverOut) (cert : Args → Option (List γ)) (sym : List (Mon × Expr)) (o : Options)
    {s s' : LpState} (hl : s.lower = s'.lower) (hu : s.upper = s'.upper) (ho : s.objective = s'.objective) (hm : s.maximize = s'.maximize) {x x' : Rat}
    (h : found (maxBisect E solver cert sym o s) = some x) (h' : found (maxBisect E solver cert sym o s') = some x') :
    x = x' ∧ (maxBisect E solver cert sym o s).2.lower = s.lower ∧ (maxBisect E solver cert sym o s).2.upper = s.upper ∧
      (maxBisect E solver cert sym o s).2.objective = s.objective ∧ (maxBisect E solver cert sym o s).2.maximize = s.maximize := by
  obtain ⟨hsup, -, -⟩ := env_san hE
  have hlike : Like s s' := ⟨hl, hu, ho, hm⟩
  have hsym : (symbolsOf sym).length = 1 := by
    by_contra hc
    unfold maxBisect at h
    rw [if_neg hc] at h
    cases h
  unfold maxBisect at h h' ⊢
  rw [if_pos hsym] at h h' ⊢
  have ne : ∀ {s : LpState} {x : Rat}, found (searchBisect E solver cert sym o s) = some x → (searchBisect E solver cert sym o s).1 ≠ .raised := by
    intro s x h e
    unfold found at h
    rw [e] at h
    cases h
  obtain ⟨h1, l1⟩ := searchBisect_spec E hsup solver cert sym o s (out := (searchBisect E solver cert sym o s).1) (s' := (searchBisect E solver cert sym o s).2) rfl (ne h)
  obtain ⟨h2, -⟩ := searchBisect_spec E hsup solver cert sym o s' (out := (searchBisect E solver cert sym o s').1) (s' := (searchBisect E solver cert sym o s').2) rfl (ne h')
  have heq : oracle E solver cert sym o s = oracle E solver cert sym o s' := by
    unfold oracle
    congr 1
    · funext v
      rw [solvedAt_objective E hsup solver sym o.lpi o.only v hlike]
    · funext v
      unfold certificateOf
      rw [solvedAt_args E hsup solver sym o.lpi o.only v hlike]
  refine ⟨?_, l1.lower, l1.upper, l1.objective, l1.maximize⟩
  unfold found at h h'
  rw [← h1, heq, h2, h'] at h
  exact (Option.some.inj h).symm

/-! ### Certificates -/

theorem fits_causal {name : Atom → String} {E : Env Mon} {val : Atom → F} (hf : Fits I E val) {s : LpState} (h1 : s.semi = []) (h2 : s.extraEq = []) (h3 : s.extraIneq = [])
    {a : Args} (ha : solverArgs E s = some a) : LpSolver.Causal (toSolver I.columns.length a : LpSolver.Args F) (columnsF E (valF val)) := by
  obtain ⟨xe, se, xi, g1, g2, g3, _, _, _, _, g8, g9⟩ := solverArgs_some E s a ha
  rw [h2] at g1; rw [h1] at g2; rw [h3] at g3
  simp only [List.mapM_nil, Option.pure_def, Option.some.injEq] at g1 g2 g3
  subst g1 g2 g3
  rw [List.append_nil, List.append_nil] at g8
  rw [List.append_nil] at g9
  constructor
  · intro i hi
    have hi' : i < a.inequalities.length := by
      have : (toSolver I.columns.length a : LpSolver.Args F).ineq.rows = a.inequalities.length := by simp [toSolver, Verif.EndToEnd.toMat, LpSolver.rowsMat]
      omega
    show 0 ≤ LpSolver.rowAt (Verif.EndToEnd.toMat I.columns.length a.inequalities : LpSolver.Coo F).ents _ i
    rw [Verif.EndToEnd.rowAt_toMat _ _ _ hi']
    exact hf.ineqs _ (by rw [← g9]; exact List.getElem_mem _)
  · intro i hi
    have hi' : i < a.equalities.length := by
      have : (toSolver I.columns.length a : LpSolver.Args F).eq.rows = a.equalities.length := by simp [toSolver, Verif.EndToEnd.toMat, LpSolver.rowsMat]
      omega
    show LpSolver.rowAt (Verif.EndToEnd.toMat I.columns.length a.equalities : LpSolver.Coo F).ents _ i = 0
    rw [Verif.EndToEnd.rowAt_toMat _ _ _ hi']
    exact hf.eqs _ (by rw [← g8]; exact List.getElem_mem _)

/-- Without dropped entries the dictionary is the certificate. -/
theorem dictAt_certificate {n : Nat} {f : Flags} {a : LpSolver.Args F} (h : LpSolver.ArgsOk n a) {p : Prep F} (hp : prepare f a = some p) (y : List F)
    (h0 : ∀ j, j < n → LpSolver.isClose0 ((certData f p y).getD j 0) = true → (certData f p y).getD j 0 = 0) (x : Nat → F) :
    dictAt (certificate f p n y) x = LpSolver.certAt n f p y x := by
  have hs := LpSolver.prepare_spec h hp
  have hcols : n ≤ p.con.cols := by rw [hs.cols]; split <;> omega
  have hlen := LpSolver.certData_length f p y
  unfold dictAt certificate LpSolver.certAt
  have hl : ((certData f p y).take n) = (List.range n).map fun j => (certData f p y).getD j 0 := by
    apply List.ext_getElem
    · simp [hlen, hcols]
    · intro i h1 h2
      simp only [List.length_map, List.length_range] at h2
      rw [List.getElem_take, List.getElem_map, List.getElem_range, List.getD_eq_getElem _ _ (by omega)]
  rw [hl]
  refine (LpSolver.dict_sum _ x n).trans (Finset.sum_congr rfl fun j hj => ?_)
  by_cases hc : LpSolver.isClose0 ((certData f p y).getD j 0) = true
  · rw [if_pos hc, h0 j (Finset.mem_range.1 hj) hc, zero_mul]
  · rw [if_neg hc]

omit [LinearOrder F] [IsStrictOrderedRing F] [Field F] in
theorem symbolNames_some {K : Type} {nameOf : K → String} {sym : List (K × Expr)} {n : String} {g : Rat → Rat} (h : symbolNames nameOf sym n = some g) :
    ∃ t ∈ sym, nameOf t.1 = n ∧ t.2.value = g := by
  unfold symbolNames at h
  have key : ∀ (l : List (K × Expr)) (d : Dict String (Rat → Rat)), (l.foldl (fun d t => Dict.set d (nameOf t.1) t.2.value) d).get n = some g →
      d.get n = some g ∨ ∃ t ∈ l, nameOf t.1 = n ∧ t.2.value = g := by
    intro l
    induction l with
    | nil => intro d h; exact .inl h
    | cons t l ih =>
      intro d h
      rw [List.foldl_cons] at h
      rcases ih _ h with h | ⟨u, hu, e⟩
      · rw [State.get_set] at h
        by_cases hn : nameOf t.1 = n
        · rw [if_pos hn] at h
          exact .inr ⟨t, List.mem_cons_self .., hn, Option.some.inj h⟩
        · rw [if_neg hn] at h
          exact .inl h
      · exact .inr ⟨u, List.mem_cons_of_mem _ hu, e⟩
  rcases key sym [] h with h | h
  · cases h
  · exact h

/-- The certificates of the program are sound: where they can be evaluated, they are not negative at the parameters that a model explains. -/
theorem certificates_sound {name : Atom → String} {E : Env Mon} (hE : I.lpEnv name = some E) (hO : Views.EnvOk E) {solver : Args → SolverOut} {cert : Args → Option (List (String × Rat))} {dual nonneg : Bool}
    (hC : TrustedCertificate F E I.columns.length dual nonneg cert) {sym : List (Mon × Expr)} (hsym : ∀ t ∈ sym, t.1 ∈ E.monomials) {o : Options} (hlpi : o.lpi = false) {s : LpState} (hs : Bare s) :
    Sound (symbolNames (Views.nameOf E) sym) (oracle E solver cert sym o s).certificate (fun v => ∃ val : Atom → F, Fits I E val ∧ Agrees E val sym v) o.b0 o.b1 := by
  intro v p hin _ _ hfe
  obtain ⟨val, hf, hv⟩ := hfe
  obtain ⟨hsup, hsan, hmon⟩ := env_san hE
  have hlen : E.monomials.length = I.columns.length := by rw [hmon]; exact Verif.EndToEnd.monomials_length
  unfold Optimize.certAt
  cases hc : certificateOf E cert (solvedAt E solver sym o.lpi o.only v s) with
  | none => simp [oracle, hc]
  | some c =>
    have ec : (oracle E solver cert sym o s).certificate v = c := by simp [oracle, hc]
    rw [ec] at hin ⊢
    unfold certificateOf at hc
    obtain ⟨a, ha, hac⟩ := Option.bind_eq_some_iff.1 hc
    unfold solvedAt at ha
    rw [solve_solverArgs] at ha
    obtain ⟨q, y, hq, hy, hdrop, hnames⟩ := hC a c hac
    obtain ⟨b1, b2, b3⟩ := bare_args hsup _ _ _ hs ha
    have ha' := ha
    rw [setValues_args_run hsup solver _ _ _ hs] at ha
    have hok := toSolver_ok (F := F) hE solver _ ha
    have hpl := setValues_plain E (makeNumerical sym v) o.only s
    rw [hlpi] at ha'
    have hcau := fits_causal (name := name) hf hpl.1 hpl.2.1 hpl.2.2 ha'
    have h0 : 0 ≤ LpSolver.certAt I.columns.length (searchFlags dual nonneg) q y (columnsF E (valF val)) :=
      LpSolver.C31_feasibility_certificate_valid hok (by simp [LpSolver.NoBounds, toSolver, toVec, b1, b2]) (by simp [toSolver, toVec, b3]) hq
        (by have e : (searchFlags dual nonneg).relaxed = true := rfl
            rw [e, if_pos rfl]; exact hy) hcau (fun _ => hf.nonneg)
    rw [← dictAt_certificate hok hq y hdrop] at h0
    -- the value of the certificate at the symbolic values
    have hval : ∀ t ∈ c, ∀ u ∈ certificate (searchFlags dual nonneg) q I.columns.length y, t.1 = Views.nameOf E (E.monomials.getD u.1 one) →
        ((((symbolNames (Views.nameOf E) sym t.1).getD fun _ => 0) p : Rat) : F) = columnsF E (valF val) u.1 := by
      intro t ht u hu e
      obtain ⟨g, hg⟩ := Option.isSome_iff_exists.1 (hin t ht)
      obtain ⟨w, hw, hwn, hwg⟩ := symbolNames_some hg
      have hu1 : u.1 < E.monomials.length := by
        unfold certificate at hu
        obtain ⟨j, hj, rfl⟩ := List.mem_mapIdx.1 (List.mem_of_mem_filter hu)
        rw [hlen]
        simp only [List.length_take] at hj
        show j < _
        omega
      have hmem : E.monomials.getD u.1 one ∈ E.monomials := by rw [List.getD_eq_getElem _ _ hu1]; exact List.getElem_mem _
      have hw1 : w.1 = E.monomials.getD u.1 one := hO.names _ (hsym w hw) _ hmem (hwn.trans e)
      rw [hg, Option.getD_some]
      unfold columnsF
      rw [← hw1, ← hsan w.1, hv w hw, hwg]
    have hF : ((((c.map fun t => ((symbolNames (Views.nameOf E) sym t.1).getD fun _ => 0) p * t.2).sum : Rat)) : F) = dictAt (certificate (searchFlags dual nonneg) q I.columns.length y) (columnsF E (valF val)) := by
      unfold dictAt
      rw [Rat.cast_list_sum, List.map_map]
      have hz : List.Forall₂ (fun (t : String × Rat) (u : Nat × F) => t.1 = Views.nameOf E (E.monomials.getD u.1 one) ∧ ((t.2 : Rat) : F) = u.2) c
          (certificate (searchFlags dual nonneg) q I.columns.length y) := by
        have := List.forall₂_eq_eq_eq (α := String × F) ▸ hnames
        rw [List.forall₂_iff_get]
        have hl : c.length = (certificate (searchFlags dual nonneg) q I.columns.length y).length := by simpa using congrArg List.length hnames
        refine ⟨hl, fun i h1 h2 => ?_⟩
        have hi := List.getElem_of_eq hnames (by simpa using h1 : i < _)
        simp only [List.getElem_map] at hi
        exact ⟨congrArg Prod.fst hi, congrArg Prod.snd hi⟩
      have hz' : List.Forall₂ (fun (t : String × Rat) (u : Nat × F) => ((((symbolNames (Views.nameOf E) sym t.1).getD fun _ => 0) p * t.2 : Rat) : F) = u.2 * columnsF E (valF val) u.1) c
          (certificate (searchFlags dual nonneg) q I.columns.length y) := by
        rw [List.forall₂_iff_get] at hz ⊢
        refine ⟨hz.1, fun i h1 h2 => ?_⟩
        obtain ⟨e1, e2⟩ := hz.2 i h1 h2
        rw [Rat.cast_mul, hval _ (List.get_mem _ _) _ (List.get_mem _ _) e1, e2, mul_comm]
      congr 1
      exact List.forall₂_eq_eq_eq ▸ (List.forall₂_map_left_iff.2 (List.forall₂_map_right_iff.2 hz'))
    rw [← hF] at h0
    exact Rat.cast_nonneg.1 h0

theorem maxDual_some {E : Env Mon} {solver : Args → SolverOut} {cert : Args → Option (List (String × Rat))} {nameOf : Mon → String} {sym : List (Mon × Expr)} {minimize : (Rat → Rat) → Rat} {o : Options}
    {fuel : Nat} {s : LpState} {r : Rat × List (Rat × Rat)} {s' : LpState} (h : maxDual E solver cert nameOf sym minimize o fuel s = some (some r, s')) :
    searchDual E solver cert nameOf sym minimize o fuel s = some (some r, s') := by
  unfold maxDual at h
  split at h
  · exact h
  · cases h

/-- **C64, the search with certificates does not miss classical models.** If the inner optimisation finds the largest parameter at which a certificate is not negative, every parameter of the interval
explained by a classical model is at most the returned value, and at most every intermediate bound. -/
theorem C64_certificates_not_below_classical {Λ : Type} [Fintype Λ] (hI : I.Accepted) (hcap : ∀ v ∈ I.columns, Capacity I.scenario (flatnonzero v)) {names : List Text.Str}
    (hN : Sanitise.NamesOk I names) {E : Env Mon} (hE : I.lpEnv (Views.atomName I names) = some E) {solver : Args → SolverOut} {cert : Args → Option (List (String × Rat))} {dual nonneg : Bool}
    (hC : TrustedCertificate F E I.columns.length dual nonneg cert) {sym : List (Mon × Expr)} (hsym : ∀ t ∈ sym, t.1 ∈ I.monomials) {o : Options} (hlpi : o.lpi = false) {s : LpState} (hs : Bare s)
    {minimize : (Rat → Rat) → Rat}
    (hm : ∀ v g, certFunction (symbolNames (Views.nameOf E) sym) ((oracle E solver cert sym o s).certificate v) = some g → IsGlobalMax o.b0 o.b1 g (minimize g)) {fuel : Nat} {x : Rat}
    {bounds : List (Rat × Rat)} {s' : LpState} (h : maxDual E solver cert (Views.nameOf E) sym minimize o fuel s = some (some (x, bounds), s')) {p : Rat} (h0 : o.b0 ≤ p) (h1 : p ≤ o.b1)
    (M : ClassicalModel I.scenario I.observed Λ F) (hM : Agrees E M.event sym p) : p ≤ x ∧ ∀ t ∈ bounds, p ≤ t.2 := by
  obtain ⟨hsup, -, hmon⟩ := env_san hE
  exact C38_safe_global (certificates_sound hE (Views.env_ok hI hN hE) (F := F) hC (by rw [hmon]; exact hsym) hlpi hs) hm
    (searchDual_spec E hsup solver cert (Views.nameOf E) sym minimize o s (maxDual_some h)).1 h0 h1 ⟨M.event, fits_classical hI M hcap hE, hM⟩
/-- **C64, the search with certificates does not miss physical theories.** -/
theorem C64_certificates_not_below_theories (hI : I.Accepted) (hcap : ∀ v ∈ I.columns, Capacity I.scenario (flatnonzero v)) {names : List Text.Str}
    (hN : Sanitise.NamesOk I names) {E : Env Mon} (hE : I.lpEnv (Views.atomName I names) = some E) {solver : Args → SolverOut} {cert : Args → Option (List (String × Rat))} {dual nonneg : Bool}
    (hC : TrustedCertificate F E I.columns.length dual nonneg cert) {sym : List (Mon × Expr)} (hsym : ∀ t ∈ sym, t.1 ∈ I.monomials) {o : Options} (hlpi : o.lpi = false) {s : LpState} (hs : Bare s)
    {minimize : (Rat → Rat) → Rat}
    (hm : ∀ v g, certFunction (symbolNames (Views.nameOf E) sym) ((oracle E solver cert sym o s).certificate v) = some g → IsGlobalMax o.b0 o.b1 g (minimize g)) {fuel : Nat} {x : Rat}
    {bounds : List (Rat × Rat)} {s' : LpState} (h : maxDual E solver cert (Views.nameOf E) sym minimize o fuel s = some (some (x, bounds), s')) {p : Rat} (h0 : o.b0 ≤ p) (h1 : p ≤ o.b1)
    (T : InflatedTheory I F) (hT : Agrees E T.event sym p) : p ≤ x ∧ ∀ t ∈ bounds, p ≤ t.2 := by
  obtain ⟨hsup, -, hmon⟩ := env_san hE
  exact C38_safe_global (certificates_sound hE (Views.env_ok hI hN hE) (F := F) hC (by rw [hmon]; exact hsym) hlpi hs) hm
    (searchDual_spec E hsup solver cert (Views.nameOf E) sym minimize o s (maxDual_some h)).1 h0 h1 ⟨T.event, fits_theory hI T hcap hE, hT⟩
/-- **C64, the same with a local method** (such as SLSQP), when all parameters of the interval up to `p` are explained by classical models. -/
theorem C64_certificates_local_not_below_classical (hI : I.Accepted) (hcap : ∀ v ∈ I.columns, Capacity I.scenario (flatnonzero v)) {names : List Text.Str}
    (hN : Sanitise.NamesOk I names) {E : Env Mon} (hE : I.lpEnv (Views.atomName I names) = some E) {solver : Args → SolverOut} {cert : Args → Option (List (String × Rat))} {dual nonneg : Bool}
    (hC : TrustedCertificate F E I.columns.length dual nonneg cert) {sym : List (Mon × Expr)} (hsym : ∀ t ∈ sym, t.1 ∈ I.monomials) {o : Options} (hlpi : o.lpi = false) {s : LpState} (hs : Bare s)
    {minimize : (Rat → Rat) → Rat}
    (hm : ∀ v g, certFunction (symbolNames (Views.nameOf E) sym) ((oracle E solver cert sym o s).certificate v) = some g → IsLocalMax o.b0 o.b1 g (minimize g)) {fuel : Nat} {x : Rat}
    {bounds : List (Rat × Rat)} {s' : LpState} (h : maxDual E solver cert (Views.nameOf E) sym minimize o fuel s = some (some (x, bounds), s')) {p : Rat} (h0 : o.b0 ≤ p) (h1 : p ≤ o.b1)
    (hM : ∀ q, o.b0 ≤ q → q ≤ p → ∃ (Λ : Type) (_ : Fintype Λ) (M : ClassicalModel I.scenario I.observed Λ F), Agrees E M.event sym q) : p ≤ x ∧ ∀ t ∈ bounds, p ≤ t.2 := by
  obtain ⟨hsup, -, hmon⟩ := env_san hE
  refine C38_safe_local (feasible := fun v => o.b0 ≤ v ∧ v ≤ p) (fun v q hin q0 q1 hq => ?_) (fun u w hw hwu _ hu => ⟨hw, hwu.trans hu.2⟩) hm
    (searchDual_spec E hsup solver cert (Views.nameOf E) sym minimize o s (maxDual_some h)).1 h0 h1 ⟨h0, le_refl _⟩
  obtain ⟨Λ, i, M, hM⟩ := hM q hq.1 hq.2
  exact certificates_sound hE (Views.env_ok hI hN hE) (F := F) hC (by rw [hmon]; exact hsym) hlpi hs v q hin q0 q1 ⟨M.event, fits_classical hI M hcap hE, hM⟩
/-- **C64, a local method and physical theories.** -/
theorem C64_certificates_local_not_below_theories (hI : I.Accepted) (hcap : ∀ v ∈ I.columns, Capacity I.scenario (flatnonzero v)) {names : List Text.Str}
    (hN : Sanitise.NamesOk I names) {E : Env Mon} (hE : I.lpEnv (Views.atomName I names) = some E) {solver : Args → SolverOut} {cert : Args → Option (List (String × Rat))} {dual nonneg : Bool}
    (hC : TrustedCertificate F E I.columns.length dual nonneg cert) {sym : List (Mon × Expr)} (hsym : ∀ t ∈ sym, t.1 ∈ I.monomials) {o : Options} (hlpi : o.lpi = false) {s : LpState} (hs : Bare s)
    {minimize : (Rat → Rat) → Rat}
    (hm : ∀ v g, certFunction (symbolNames (Views.nameOf E) sym) ((oracle E solver cert sym o s).certificate v) = some g → IsLocalMax o.b0 o.b1 g (minimize g)) {fuel : Nat} {x : Rat}
    {bounds : List (Rat × Rat)} {s' : LpState} (h : maxDual E solver cert (Views.nameOf E) sym minimize o fuel s = some (some (x, bounds), s')) {p : Rat} (h0 : o.b0 ≤ p) (h1 : p ≤ o.b1)
    (hT : ∀ q, o.b0 ≤ q → q ≤ p → ∃ T : InflatedTheory I F, Agrees E T.event sym q) : p ≤ x ∧ ∀ t ∈ bounds, p ≤ t.2 := by
  obtain ⟨hsup, -, hmon⟩ := env_san hE
  refine C38_safe_local (feasible := fun v => o.b0 ≤ v ∧ v ≤ p) (fun v q hin q0 q1 hq => ?_) (fun u w hw hwu _ hu => ⟨hw, hwu.trans hu.2⟩) hm
    (searchDual_spec E hsup solver cert (Views.nameOf E) sym minimize o s (maxDual_some h)).1 h0 h1 ⟨h0, le_refl _⟩
  obtain ⟨T, hT⟩ := hT q hq.1 hq.2
  exact certificates_sound hE (Views.env_ok hI hN hE) (F := F) hC (by rw [hmon]; exact hsym) hlpi hs v q hin q0 q1 ⟨T.event, fits_theory hI T hcap hE, hT⟩
end Verif.Search

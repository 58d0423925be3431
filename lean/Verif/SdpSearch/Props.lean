import Verif.SdpSearch.Stateful
import Verif.SdpEnd.ClassicalSound
import Verif.SdpEnd.QuantumSound
import Verif.QuantumNet.Props
import Verif.Search.Props
/-
C66: `max_within_feasible` on a semidefinite program. The value it returns is compared with the models of the causal structure (classical models, quantum networks, models of the inflated network),
for the program that the code builds and the problem that the code hands to MOSEK.
-/
namespace Verif.SdpSearch
open Verif.Common Verif.Moment Verif.Optimize Verif.Scenario
open Verif.State (Dict Mon)
open Verif.Search (Expr makeNumerical Options symbolNames symbolsOf symbolNames_some)
open Verif.SdpState hiding Truthful
open Verif.SdpEnd
open Verif.EndToEnd (Input CausalModel WellFormed)
open Verif.QuantumNet (QuantumNetwork inflate generates_of_network)
open Verif.Theory (realises_of_generates)

variable {I : Input} {cols : List (List Nat)} {ch : Choice} {name : Atom → String} {B : Built} {γ : Type}

/-! ### What is assumed of the solver -/

/-- The objective value of a successful call of the solver, on a problem without objective, is right up to `δ`: in the primal form it is, up to `δ`, an upper bound on the problem; in the dual form (a
minimisation) it is, up to `δ`, at least the value at a feasible point. The problem is the one of `feas_as_optim=True`. -/
def Trusted (n : Nat) (B : Built) (dual : Bool) (δ : ℝ) (solver : Args → SolverOut) : Prop :=
  ∀ a : Args, a.objective.length ≤ 1 → (solver a).status = "feasible" → ∃ (fl : SdpSolver.Flags (Option Mon)) (P : SdpSolver.Prep (Option Mon) ℝ n), fl.feas = true ∧ fl.nonneg = false ∧
    fl.Fresh (solverInput n B a) ∧ SdpSolver.prep fl (solverInput n B a) = some P ∧
    if dual then ∃ Z mi me, P.Dual false Z mi me ∧ P.dualValue true Z mi me - δ ≤ (((solver a).primal : Rat) : ℝ)
    else ∀ x G, P.Primal false x G → P.primalValue x - δ ≤ (((solver a).primal : Rat) : ℝ)

/-- The certificate is the one of C31: the dictionary made from multipliers that are feasible in the dual problem, with the names of the moments; no entry that is dropped because it is within 10⁻⁸ of
zero is different from zero. -/
def TrustedCertificate (n : Nat) (B : Built) (nameOf : Option Mon → String) (cert : Args → Option (List (String × Rat))) : Prop :=
  ∀ (a : Args) c, a.objective.length ≤ 1 → cert a = some c → ∃ (fl : SdpSolver.Flags (Option Mon)) (P : SdpSolver.Prep (Option Mon) ℝ n) (Z : SdpSolver.Mat n ℝ) (mi me : Nat → ℝ),
    fl.feas = true ∧ fl.nonneg = false ∧ fl.Fresh (solverInput n B a) ∧ SdpSolver.prep fl (solverInput n B a) = some P ∧ P.Dual false Z mi me ∧
    (∀ t ∈ P.known, |P.certEntry true Z mi me t.1| ≤ 1 / 100000000 → P.certEntry true Z mi me t.1 = 0) ∧
    c.map (fun t => (t.1, ((t.2 : Rat) : ℝ))) = (P.certificate true (fun x => decide (|x| ≤ 1 / 100000000)) Z mi me).map fun t => (nameOf t.1, t.2)

/-! ### What it means for a model to explain a value of the parameter -/

/-- The values of the symbolic expressions at `v` are those of the model. -/
def Agrees {R : Type} [Ring R] [StarRing R] [Algebra ℝ R] (M : InflatedModel I R) (sym : List (Mon × Expr)) (v : Rat) : Prop := ∀ t ∈ sym, ValueTrue M.moment t.1 (t.2.value v)

/-- No objective is set. -/
structure Bare (s : St) : Prop where
  objective : s.objective = [(one, 0)]
  processed : s.processed = [(one, 0)]
  maximize : s.maximize = true

/-- The program is ready for the search: it has been set up and used without an exception and without linearised constraints, and no objective is set. -/
structure Ready (B : Built) (solver : Args → SolverOut) (h : List (Call Mon)) : Prop where
  ok : Ok B.env solver h
  noLpi : NoLpi h
  bare : Bare (run B.env solver h)

/-! ### The states in which the search asks the program -/

/-- After some rounds of the search. -/
def Reached (B : Built) (solver : Args → SolverOut) (h0 : List (Call Mon)) (s : St) : Prop :=
  ∃ t, s = run B.env solver (h0 ++ t) ∧ Ok B.env solver (h0 ++ t) ∧ ∀ c ∈ t, (∃ v o, c = .setValues v false o) ∨ c = .solve

theorem ok_snoc {K : Type} {E : Env K} {solver : Args → SolverOut} {h : List (Call K)} {c : Call K} (hok : Ok E solver h) (hc : (call E solver (run E solver h) c).2 = none) : Ok E solver (h ++ [c]) := by
  intro h1 c' h2 e
  rcases List.eq_nil_or_concat h2 with rfl | ⟨l, x, rfl⟩
  · obtain ⟨rfl, e2⟩ := List.append_inj' e rfl
    obtain rfl := (List.cons.inj e2).1
    exact hc
  · have e' : h ++ [c] = (h1 ++ c' :: l) ++ [x] := by rw [e]; simp
    obtain ⟨e1, -⟩ := List.append_inj' e' rfl
    exact hok h1 c' l e1

theorem env_facts (hV : Setup I cols ch name B) : B.env.supports = false ∧ B.env.san = id := by
  obtain ⟨_, _, _, _, _, _, _, _, _, _, henv⟩ := build_some hV.built
  rw [henv]
  exact ⟨rfl, rfl⟩

theorem bare_cleanup {K : Type} (E : Env K) (hE : E.supports = false) {s : St} (hg : Good s) (ho : s.objective = [(one, 0)]) (hm : s.maximize = true) (hn : (cleanup E s).2 = none) : Bare (cleanup E s).1 := by
  have hss : supportsStep E s = s := by unfold supportsStep; rw [hE]; simp
  obtain ⟨lo, up, pr, se, e, _, _, _, _, _, h⟩ := cleanup_eq E s (by rw [hss]; exact hg)
  obtain ⟨_, _, _, _, hpr, _⟩ := h hn
  rw [e, hss]
  refine ⟨ho, ?_, hm⟩
  show pr = _
  rw [hpr, ho]
  rfl

theorem bare_setValues {K : Type} (E : Env K) (hE : E.supports = false) {s : St} (hg : Good s) (hb : Bare s) (v : List (K × Option Rat)) (lpi o : Bool) (hn : (setValues E v lpi o s).2 = none) :
    Bare (setValues E v lpi o s).1 := by
  obtain ⟨b, e⟩ := setValues_eq E v lpi o s
  rw [e] at hn ⊢
  obtain ⟨n1, n2⟩ := valuesOf_nodup E v lpi o
  have hgr := resetValues_good E s hg
  exact bare_cleanup E hE ⟨n1, n2, hgr.lower, hgr.upper, hgr.objective, hgr.one⟩ hb.objective hb.maximize hn

theorem bare_solve {K : Type} (E : Env K) (solver : Args → SolverOut) {s : St} (hb : Bare s) : Bare (solve E solver s).1 := by
  unfold solve
  split
  · exact hb
  · exact ⟨hb.objective, hb.processed, hb.maximize⟩

theorem Reached.bare (hV : Setup I cols ch name B) {solver : Args → SolverOut} {h0 : List (Call Mon)} (hR : Ready B solver h0) {s : St} (hs : Reached B solver h0 s) : Bare s := by
  obtain ⟨t, rfl, hok, ht⟩ := hs
  induction t using List.reverseRecOn with
  | nil => rw [List.append_nil]; exact hR.bare
  | append_singleton t c ih =>
    rw [← List.append_assoc] at hok ⊢
    rw [run_snoc]
    have hb := ih (fun h1 c' h2 e => hok h1 c' (h2 ++ [c]) (by rw [e]; simp)) (fun c hc => ht c (by simp [hc]))
    have hn := hok (h0 ++ t) c [] rfl
    rcases ht c (by simp) with ⟨v, o, rfl⟩ | rfl
    · exact bare_setValues B.env (env_facts hV).1 (run_good _ _ _) hb v false o hn
    · exact bare_solve B.env solver hb

/-- The state in which the solver is called at the parameter `v`. -/
structure AskedAt (B : Built) (solver : Args → SolverOut) (h0 : List (Call Mon)) (vals : List (Mon × Option Rat)) (o : Bool) (s : St) (a : Args) : Prop where
  history : ∃ t, s = run B.env solver (h0 ++ t ++ [.setValues vals false o]) ∧ Ok B.env solver (h0 ++ t ++ [.setValues vals false o]) ∧ ∀ c ∈ t, (∃ v o, c = .setValues v false o) ∨ c = .solve
  args : solverArgs B.env s = some a
  bare : Bare s

/-- One round of the search: the solver has been asked in a state of the kind above, and the state afterwards can be reached. -/
theorem round (hV : Setup I cols ch name B) {solver : Args → SolverOut} {h0 : List (Call Mon)} (hR : Ready B solver h0) {sym : List (Mon × Expr)} {only : Bool} {v : Rat} {s : St}
    (hs : Reached B solver h0 s) (hn : (solvedAt B.env solver sym false only v s).2 = none) :
    ∃ a, AskedAt B solver h0 (makeNumerical sym v) only (setValues B.env (makeNumerical sym v) false only s).1 a ∧ Reached B solver h0 (solvedAt B.env solver sym false only v s).1 ∧
      solverArgs B.env (solvedAt B.env solver sym false only v s).1 = some a ∧
      (solvedAt B.env solver sym false only v s).1.result = if (solver a).status = "feasible" then .solved (solver a).primal else .failed (solver a).status := by
  have hb := hs.bare hV hR
  obtain ⟨t, rfl, hok, ht⟩ := hs
  unfold solvedAt at hn ⊢
  rcases h1 : (setValues B.env (makeNumerical sym v) false only (run B.env solver (h0 ++ t))).2 with _ | e
  swap
  · unfold andThen at hn
    rw [h1] at hn
    dsimp only at hn
    rw [h1] at hn
    cases hn
  have e1 : andThen (setValues B.env (makeNumerical sym v) false only (run B.env solver (h0 ++ t))) (solve B.env solver) =
      solve B.env solver (setValues B.env (makeNumerical sym v) false only (run B.env solver (h0 ++ t))).1 := by unfold andThen; rw [h1]
  rw [e1] at hn ⊢
  have hok1 : Ok B.env solver (h0 ++ t ++ [.setValues (makeNumerical sym v) false only]) := ok_snoc hok h1
  have hrun : (setValues B.env (makeNumerical sym v) false only (run B.env solver (h0 ++ t))).1 = run B.env solver (h0 ++ t ++ [.setValues (makeNumerical sym v) false only]) := by rw [run_snoc]; rfl
  have hb1 := bare_setValues B.env (env_facts hV).1 (run_good _ _ _) hb (makeNumerical sym v) false only h1
  rcases ha : solverArgs B.env (setValues B.env (makeNumerical sym v) false only (run B.env solver (h0 ++ t))).1 with _ | a
  · unfold solve at hn
    rw [ha] at hn
    cases hn
  refine ⟨a, ⟨⟨t, hrun, hok1, ht⟩, ha, hb1⟩, ⟨t ++ [.setValues (makeNumerical sym v) false only, .solve], ?_, ?_, ?_⟩, ?_, ?_⟩
  · rw [show h0 ++ (t ++ [.setValues (makeNumerical sym v) false only, .solve]) = h0 ++ t ++ [.setValues (makeNumerical sym v) false only] ++ [.solve] by simp, run_snoc, ← hrun]
    rfl
  · rw [show h0 ++ (t ++ [.setValues (makeNumerical sym v) false only, .solve]) = h0 ++ t ++ [.setValues (makeNumerical sym v) false only] ++ [.solve] by simp]
    exact ok_snoc hok1 (by rw [← hrun]; exact hn)
  · intro c hc
    simp only [List.mem_append, List.mem_cons, List.not_mem_nil, or_false] at hc
    rcases hc with hc | rfl | rfl
    · exact ht c hc
    · exact .inl ⟨_, _, rfl⟩
    · exact .inr rfl
  · unfold solve
    rw [ha]
    exact ha
  · unfold solve
    rw [ha]
    dsimp only
    rw [hb1.maximize]
    simp

section
variable {R : Type} [Ring R] [StarRing R] [Algebra ℝ R] {M : InflatedModel I R} {solver : Args → SolverOut} {h0 : List (Call Mon)} {vals : List (Mon × Option Rat)} {o : Bool} {s : St} {a : Args}

theorem AskedAt.noLpi (hR : Ready B solver h0) {t : List (Call Mon)} (ht : ∀ c ∈ t, (∃ v o, c = .setValues v false o) ∨ c = .solve) : NoLpi (h0 ++ t ++ [.setValues vals false o]) := by
  intro c hc
  simp only [List.mem_append, List.mem_cons, List.not_mem_nil, or_false] at hc
  rcases hc with (hc | hc) | rfl
  · exact hR.noLpi c hc
  · rcases ht c hc with ⟨v, o, rfl⟩ | rfl
    · rfl
    · trivial
  · rfl

theorem boundsTrue_more (hb : ∀ c ∈ h0, BoundsTrue M.moment c) {t : List (Call Mon)} (ht : ∀ c ∈ t, (∃ v o, c = .setValues v false o) ∨ c = .solve) :
    ∀ c ∈ h0 ++ t ++ [Call.setValues vals false o], BoundsTrue M.moment c := by
  intro c hc
  simp only [List.mem_append, List.mem_cons, List.not_mem_nil, or_false] at hc
  rcases hc with (hc | hc) | rfl
  · exact hb c hc
  · rcases ht c hc with ⟨v, o, rfl⟩ | rfl <;> trivial
  · trivial

/-- The problem given to the solver during the search, for certificates. -/
theorem AskedAt.asked (A : AskedAt B solver h0 vals o s a) (hV : Setup I cols ch name B) (hR : Ready B solver h0) (M : InflatedModel I R) (hb : ∀ c ∈ h0, BoundsTrue M.moment c) :
    ∃ h, s = run B.env solver h ∧ Asked I cols ch name B M solver h a := by
  obtain ⟨t, rfl, hok, ht⟩ := A.history
  exact ⟨_, rfl, hV, boundsTrue_more hb ht, AskedAt.noLpi hR ht, hok, A.args⟩

/-- If the values are true of the model, the model solves the problem given to the solver, whatever values have been tried before. -/
theorem AskedAt.solves [StarModule ℝ R] (A : AskedAt B solver h0 vals o s a) (hV : Setup I cols ch name B) (hR : Ready B solver h0) (hb : ∀ c ∈ h0, BoundsTrue M.moment c)
    (hherm : ∀ m ∈ B.env.hermitian, 0 ≤ M.value m) (hv : ∀ t ∈ vals, ∀ x, t.2 = some x → ValueTrue M.moment t.1 x) : (solverInput cols.length B a).Solves false (values M) 0 := by
  obtain ⟨hsup, hsan⟩ := env_facts hV
  obtain ⟨t, e, hok, ht⟩ := A.history
  have hargs := A.args
  rw [e] at hargs
  refine solves_of_holds M hV solver _ ⟨?_, ?_, ?_⟩ hargs
  · have hh := (history_holds M hV hherm solver [.setValues vals false o] (by
      intro c hc
      rw [List.mem_singleton.1 hc]
      exact ⟨hv, by simp⟩)).values
    have hk := (C26_sdp_no_trace B.env solver (h0 ++ t) [] vals false o).1
    refine ⟨?_, ?_⟩
    · intro m x hm
      rw [run_snoc, hk] at hm
      exact hh.known m x hm
    · intro m c m2 hm
      rw [semi_nil B.env hsup solver _ (AskedAt.noLpi hR ht)] at hm
      cases hm
  · exact (run_bounds (PL := fun m x => ((x : Rat) : ℝ) ≤ (M.moment m).re ∧ (isClose0 x = true → x = 0))
      (PU := fun m x => (M.moment m).re ≤ ((x : Rat) : ℝ) ∧ (isClose0 x = true → x = 0)) B.env hsup solver (fun m hm => ⟨by simpa [InflatedModel.value] using hherm m hm, fun _ => rfl⟩) _
      (by intro c hc l e t' ht'
          have := boundsTrue_more (vals := vals) (o := o) hb ht c hc
          rw [e] at this
          rw [hsan]
          exact this t' ht')
      (by intro c hc l e t' ht'
          have := boundsTrue_more (vals := vals) (o := o) hb ht c hc
          rw [e] at this
          rw [hsan]
          exact this t' ht')).lower
  · exact (run_bounds (PL := fun m x => ((x : Rat) : ℝ) ≤ (M.moment m).re ∧ (isClose0 x = true → x = 0))
      (PU := fun m x => (M.moment m).re ≤ ((x : Rat) : ℝ) ∧ (isClose0 x = true → x = 0)) B.env hsup solver (fun m hm => ⟨by simpa [InflatedModel.value] using hherm m hm, fun _ => rfl⟩) _
      (by intro c hc l e t' ht'
          have := boundsTrue_more (vals := vals) (o := o) hb ht c hc
          rw [e] at this
          rw [hsan]
          exact this t' ht')
      (by intro c hc l e t' ht'
          have := boundsTrue_more (vals := vals) (o := o) hb ht c hc
          rw [e] at this
          rw [hsan]
          exact this t' ht')).upper

theorem AskedAt.objective (A : AskedAt B solver h0 vals o s a) : a.objective.length ≤ 1 := by
  have ha := A.args
  unfold solverArgs at ha
  split at ha
  swap
  · cases ha
  rw [← Option.some.inj ha]
  show s.processed.length ≤ 1
  rw [A.bare.processed]
  simp

/-- If a model agrees with the values, the objective value that the solver reports is not below `-δ`. -/
theorem AskedAt.not_negative [StarModule ℝ R] (A : AskedAt B solver h0 vals o s a) (hV : Setup I cols ch name B) (hR : Ready B solver h0) (hb : ∀ c ∈ h0, BoundsTrue M.moment c)
    (hherm : ∀ m ∈ B.env.hermitian, 0 ≤ M.value m) (hv : ∀ t ∈ vals, ∀ x, t.2 = some x → ValueTrue M.moment t.1 x) {dual : Bool} {δ : ℝ} (hS : Trusted cols.length B dual δ solver)
    (hf : (solver a).status = "feasible") : -δ ≤ (((solver a).primal : Rat) : ℝ) := by
  obtain ⟨h, -, hA⟩ := A.asked hV hR M hb
  have hok := hA.input_ok
  have hsol := A.solves hV hR hb hherm hv
  obtain ⟨fl, P, f1, f2, f3, hP, hT⟩ := hS a A.objective hf
  cases dual with
  | true =>
    rw [if_pos rfl] at hT
    obtain ⟨Z, mi, me, hD, hle⟩ := hT
    have := SdpSolver.C32_dual_bounds_feasibility hok f1 f3 (masks_ne_nil _ _ _) hP hD hsol
    linarith
  | false =>
    rw [if_neg (by simp)] at hT
    obtain ⟨lam, h1, h2, h3, h4⟩ := SdpSolver.C32_feasibility_as_optimisation hok f1 f3 (masks_ne_nil _ _ _) (by simp [f2]) hP
    rw [f2] at h4
    set x : Option Mon → ℝ := fun y => if y = lam then 0 else values M y with hx
    have hxl : x lam = 0 := by simp [hx]
    obtain ⟨h5, h6⟩ := h4 x
    obtain ⟨G, hG⟩ := h5.2 ⟨by simp, values M, by rw [hxl]; exact hsol, fun y hy hne => by simp [hx, hne]⟩
    have := hT x G hG
    rw [h6, hxl] at this
    linarith

end

theorem numerical_true {R : Type} [Ring R] [StarRing R] [Algebra ℝ R] {M : InflatedModel I R} {sym : List (Mon × Expr)} {v : Rat} (h : Agrees M sym v) :
    ∀ t ∈ makeNumerical sym v, ∀ x, t.2 = some x → ValueTrue M.moment t.1 x := by
  intro t ht x hx
  obtain ⟨u, hu, rfl⟩ := List.mem_map.1 ht
  rw [← Option.some.inj hx]
  exact h u hu

/-! ### Bisection -/

/-- The models with which the search is compared: the bounds set by the user before the search are true, and so are the default lower bounds. -/
structure Admissible {R : Type} [Ring R] [StarRing R] [Algebra ℝ R] (B : Built) (h0 : List (Call Mon)) (M : InflatedModel I R) : Prop where
  bounds : ∀ c ∈ h0, BoundsTrue M.moment c
  default : ∀ m ∈ B.env.hermitian, 0 ≤ M.value m

theorem excludes (hV : Setup I cols ch name B) {solver : Args → SolverOut} {h0 : List (Call Mon)} (hR : Ready B solver h0) {cert : Args → Option (List γ)} {sym : List (Mon × Expr)} {o : Options}
    (hlpi : o.lpi = false) {dual : Bool} {δ : ℝ} (hS : Trusted cols.length B dual δ solver) (hδ : δ < ((o.precision / 2048 : Rat) : ℝ)) :
    Excludes B.env solver cert sym o (Reached B solver h0) fun u =>
      ∀ (R : Type) [Ring R] [StarRing R] [Algebra ℝ R] [StarModule ℝ R] (M : InflatedModel I R), Admissible B h0 M → ¬ Agrees M sym u := by
  intro v s x c s' hs he
  unfold evaluation at he
  rw [hlpi] at he
  dsimp only at he
  rcases hn : (solvedAt B.env solver sym false o.only v s).2 with _ | e
  swap
  · rw [hn] at he
    cases he
  obtain ⟨a, hA, hr, -, hres⟩ := round hV hR hs hn
  rw [hn, hres] at he
  by_cases hf : (solver a).status = "feasible"
  swap
  · rw [if_neg hf] at he
    cases he
  rw [if_pos hf] at he
  rcases hc : certificateOf B.env cert (solvedAt B.env solver sym false o.only v s).1 with _ | c'
  · rw [hc] at he
    cases he
  rw [hc] at he
  simp only [Prod.mk.injEq, Option.some.injEq] at he
  obtain ⟨⟨rfl, rfl⟩, rfl⟩ := he
  refine ⟨hr, ?_⟩
  intro hx R _ _ _ _ M hM hv
  have := hA.not_negative hV hR hM.bounds hM.default (numerical_true hv) hS hf
  have hx : (((solver a).primal + o.precision / 2048 : Rat) : ℝ) ≤ ((0 : Rat) : ℝ) := Rat.cast_le.2 hx
  rw [Rat.cast_add, Rat.cast_zero] at hx
  linarith

/-- The core of the bisection theorems: at or just above the returned value there is a parameter which no model explains. -/
theorem bisect_core (hV : Setup I cols ch name B) {solver : Args → SolverOut} {h0 : List (Call Mon)} (hR : Ready B solver h0) {cert : Args → Option (List γ)} {sym : List (Mon × Expr)} {o : Options}
    (hlpi : o.lpi = false) {dual : Bool} {δ : ℝ} (hS : Trusted cols.length B dual δ solver) (hp : 0 < o.precision) (hδ : δ < ((o.precision / 2048 : Rat) : ℝ)) (hb : o.b0 < o.b1)
    {x : Rat} (h : found (maxBisect B.env solver cert sym o (run B.env solver h0)) = some x) :
    o.b0 ≤ x ∧ x ≤ o.b1 ∧ ∃ u, (u = x ∨ x < u ∧ u - x < o.xtol + o.rtol * |x|) ∧ u ≤ o.b1 ∧
      ∀ (R : Type) [Ring R] [StarRing R] [Algebra ℝ R] [StarModule ℝ R] (M : InflatedModel I R), Admissible B h0 M → ¬ Agrees M sym u :=
  maxBisect_spec (excludes hV hR hlpi hS hδ) hp hb (P := Reached B solver h0) ⟨[], by simp, by simpa using hR.ok, by simp⟩ h

/-- **C66, what bisection returns is excluded, models of the inflated network.** The program may have been used before in any way without exceptions. If the search returns `x`, there is a parameter `u`
equal to `x` or above it by less than the tolerance for which no model of the inflated network, of any dimension, in which the bounds of the user are true has the moments that the symbolic values
prescribe. What is missing: the default lower bounds of the code (see C46). -/
theorem C66_bisection_excludes_operators_partial (hV : Setup I cols ch name B) (hs : BoundsSafe I B) {solver : Args → SolverOut} {h0 : List (Call Mon)} (hR : Ready B solver h0)
    {cert : Args → Option (List γ)} {sym : List (Mon × Expr)} {o : Options} (hlpi : o.lpi = false) {dual : Bool} {δ : ℝ} (hS : Trusted cols.length B dual δ solver) (hp : 0 < o.precision)
    (hδ : δ < ((o.precision / 2048 : Rat) : ℝ)) (hb : o.b0 < o.b1) {x : Rat} (h : found (maxBisect B.env solver cert sym o (run B.env solver h0)) = some x) :
    o.b0 ≤ x ∧ x ≤ o.b1 ∧ ∃ u, (u = x ∨ x < u ∧ u - x < o.xtol + o.rtol * |x|) ∧ u ≤ o.b1 ∧
      ∀ (R : Type) [Ring R] [StarRing R] [Algebra ℝ R] [StarModule ℝ R] (M : InflatedModel I R), (∀ c ∈ h0, BoundsTrue M.moment c) → ¬ Agrees M sym u := by
  obtain ⟨g1, g2, u, g3, g4, g5⟩ := bisect_core hV hR hlpi hS hp hδ hb h
  exact ⟨g1, g2, u, g3, g4, fun R _ _ _ _ M hM => g5 R M ⟨hM, C46_moments_nonneg M hs⟩⟩

/-- **C66, what bisection returns is excluded, classical models**, over any finite alphabets. -/
theorem C66_bisection_excludes_classical (hI : I.Accepted) (hD : WellFormed I.D) (hso : HasSources I.D) (hV : Setup I cols ch name B) {solver : Args → SolverOut} {h0 : List (Call Mon)}
    (hR : Ready B solver h0) {cert : Args → Option (List γ)} {sym : List (Mon × Expr)} {o : Options} (hlpi : o.lpi = false) {dual : Bool} {δ : ℝ} (hS : Trusted cols.length B dual δ solver)
    (hp : 0 < o.precision) (hδ : δ < ((o.precision / 2048 : Rat) : ℝ)) (hb : o.b0 < o.b1) {x : Rat} (h : found (maxBisect B.env solver cert sym o (run B.env solver h0)) = some x) :
    o.b0 ≤ x ∧ x ≤ o.b1 ∧ ∃ u, (u = x ∨ x < u ∧ u - x < o.xtol + o.rtol * |x|) ∧ u ≤ o.b1 ∧
      ∀ (Λ : Type) [Fintype Λ] (M : CausalModel I.D I.outcomes I.priv Λ ℝ), (∀ c ∈ h0, BoundsTrue (inflated hI hD hso M).moment c) → ¬ Agrees (inflated hI hD hso M) sym u := by
  obtain ⟨g1, g2, u, g3, g4, g5⟩ := bisect_core hV hR hlpi hS hp hδ hb h
  exact ⟨g1, g2, u, g3, g4, fun Λ _ M hM => g5 _ (inflated hI hD hso M) ⟨hM, fun m _ => classical_nonneg hI _ _ m⟩⟩

/-! ### Distributions -/

/-- The user sets no bounds. -/
def NoBounds (h : List (Call Mon)) : Prop := ∀ c ∈ h, (∀ l, c ≠ .setLower (some l)) ∧ ∀ l, c ≠ .setUpper (some l)

theorem NoBounds.true {h : List (Call Mon)} (hn : NoBounds h) (cval : Mon → ℂ) : ∀ c ∈ h, BoundsTrue cval c := by
  intro c hc
  obtain ⟨h1, h2⟩ := hn c hc
  unfold BoundsTrue
  split
  · exact absurd rfl (h1 _)
  · exact absurd rfl (h2 _)
  · trivial

/-- The symbolic values are, for every parameter, those which `set_distribution` would compute for the distribution `P v`. -/
def Family (I : Input) (B : Built) (P : Rat → List Nat → Rat) (sym : List (Mon × Expr)) : Prop := ∀ v, setDistribution I B (P v) false false = some (.setValues (makeNumerical sym v) false false)

/-- **C66, distributions.** If the symbolic values are those which `set_distribution` would compute for a family `P` of distributions, a model that realises `P v` explains `v`. -/
theorem C66_distributions_agree {R : Type} [Ring R] [StarRing R] [Algebra ℝ R] (M : InflatedModel I R) (hV : Setup I cols ch name B) {P : Rat → List Nat → Rat} {sym : List (Mon × Expr)} {v : Rat}
    (hsym : setDistribution I B (P v) false false = some (.setValues (makeNumerical sym v) false false)) (hP : M.Realises (P v)) : Agrees M sym v := by
  have h := truthful_callTrue hV M (.distribution hP (by simp) hsym)
  intro t ht
  exact h.1 (t.1, some (t.2.value v)) (List.mem_map.2 ⟨t, ht, rfl⟩) _ rfl

/-- **C66, families of distributions, classical models.** The distribution at some parameter equal to the returned value or above it by less than the tolerance is generated by no classical causal model
of the graph. -/
theorem C66_bisection_excludes_classical_distributions (hI : I.Accepted) (hD : WellFormed I.D) (hso : HasSources I.D) (hV : Setup I cols ch name B) {solver : Args → SolverOut} {h0 : List (Call Mon)}
    (hR : Ready B solver h0) (hnb : NoBounds h0) {cert : Args → Option (List γ)} {sym : List (Mon × Expr)} {P : Rat → List Nat → Rat} (hsym : Family I B P sym) {o : Options} (hlpi : o.lpi = false)
    {dual : Bool} {δ : ℝ} (hS : Trusted cols.length B dual δ solver) (hp : 0 < o.precision) (hδ : δ < ((o.precision / 2048 : Rat) : ℝ)) (hb : o.b0 < o.b1) {x : Rat}
    (h : found (maxBisect B.env solver cert sym o (run B.env solver h0)) = some x) :
    o.b0 ≤ x ∧ x ≤ o.b1 ∧ ∃ u, (u = x ∨ x < u ∧ u - x < o.xtol + o.rtol * |x|) ∧ u ≤ o.b1 ∧
      ∀ (Λ : Type) [Fintype Λ] (M : CausalModel I.D I.outcomes I.priv Λ ℝ), ¬ M.Generates fun t => ((P u t : Rat) : ℝ) := by
  obtain ⟨g1, g2, u, g3, g4, g5⟩ := C66_bisection_excludes_classical hI hD hso hV hR hlpi hS hp hδ hb h
  refine ⟨g1, g2, u, g3, g4, fun Λ _ M hM => g5 Λ M (hnb.true _) ?_⟩
  exact C66_distributions_agree _ hV (hsym u) (classical_realises hI _ _ (EndToEnd.toClassical_realises hI hD M hM))

/-- **C66, families of distributions, quantum networks.** What is missing: `BoundsSafe` (see C46). -/
theorem C66_bisection_excludes_quantum_distributions_partial (hI : I.Accepted) (hV : Setup I cols ch name B) (hs : BoundsSafe I B) {solver : Args → SolverOut} {h0 : List (Call Mon)}
    (hR : Ready B solver h0) (hnb : NoBounds h0) {cert : Args → Option (List γ)} {sym : List (Mon × Expr)} {P : Rat → List Nat → Rat} (hsym : Family I B P sym) {o : Options} (hlpi : o.lpi = false)
    {dual : Bool} {δ : ℝ} (hS : Trusted cols.length B dual δ solver) (hp : 0 < o.precision) (hδ : δ < ((o.precision / 2048 : Rat) : ℝ)) (hb : o.b0 < o.b1) {x : Rat}
    (h : found (maxBisect B.env solver cert sym o (run B.env solver h0)) = some x) :
    o.b0 ≤ x ∧ x ≤ o.b1 ∧ ∃ u, (u = x ∨ x < u ∧ u - x < o.xtol + o.rtol * |x|) ∧ u ≤ o.b1 ∧
      ∀ (A : Type) [Fintype A] [DecidableEq A] (N : QuantumNetwork I A), ¬ N.Generates fun t => ((P u t : Rat) : ℂ) := by
  obtain ⟨g1, g2, u, g3, g4, g5⟩ := C66_bisection_excludes_operators_partial hV hs hR hlpi hS hp hδ hb h
  refine ⟨g1, g2, u, g3, g4, fun A _ _ N hN => g5 _ (inflate N hI) (hnb.true _) ?_⟩
  exact C66_distributions_agree _ hV (hsym u) (realises_of_generates _ hI (generates_of_network N hI hN))

/-- **C66, families of distributions, quantum networks without inflation**: no assumption on the bounds. -/
theorem C66_bisection_excludes_quantum_uninflated (hI : I.Accepted) (hl : ∀ s < I.scenario.nSources, I.scenario.level s ≤ 1) (hV : Setup I cols ch name B) {solver : Args → SolverOut}
    {h0 : List (Call Mon)} (hR : Ready B solver h0) (hnb : NoBounds h0) {cert : Args → Option (List γ)} {sym : List (Mon × Expr)} {P : Rat → List Nat → Rat} (hsym : Family I B P sym) {o : Options}
    (hlpi : o.lpi = false) {dual : Bool} {δ : ℝ} (hS : Trusted cols.length B dual δ solver) (hp : 0 < o.precision) (hδ : δ < ((o.precision / 2048 : Rat) : ℝ)) (hb : o.b0 < o.b1) {x : Rat}
    (h : found (maxBisect B.env solver cert sym o (run B.env solver h0)) = some x) :
    o.b0 ≤ x ∧ x ≤ o.b1 ∧ ∃ u, (u = x ∨ x < u ∧ u - x < o.xtol + o.rtol * |x|) ∧ u ≤ o.b1 ∧
      ∀ (A : Type) [Fintype A] [DecidableEq A] (N : QuantumNetwork I A), ¬ N.Generates fun t => ((P u t : Rat) : ℂ) :=
  C66_bisection_excludes_quantum_distributions_partial hI hV (safe_of_noSymmetry (symmetries_of_levels hl) hV) hR hnb hsym hlpi hS hp hδ hb h

theorem not_below {o : Options} {x v : Rat} (hxt : 0 ≤ o.xtol) (hrt : 0 ≤ o.rtol) {Excl : Rat → Prop}
    (h : o.b0 ≤ x ∧ x ≤ o.b1 ∧ ∃ u, (u = x ∨ x < u ∧ u - x < o.xtol + o.rtol * |x|) ∧ u ≤ o.b1 ∧ Excl u) (hm : ∀ u, o.b0 ≤ u → u ≤ v → ¬ Excl u) : v - (o.xtol + o.rtol * |x|) < x := by
  obtain ⟨g1, g2, u, g3, g4, g5⟩ := h
  have ht : 0 ≤ o.xtol + o.rtol * |x| := add_nonneg hxt (mul_nonneg hrt (abs_nonneg _))
  have hu : v < u := by
    by_contra hc
    exact hm u (by rcases g3 with rfl | ⟨g3, -⟩ <;> linarith) (not_lt.1 hc) g5
  rcases g3 with rfl | ⟨_, g3⟩ <;> linarith

/-- **C66, bisection does not miss classical models.** If the distribution at every parameter from the lower end of the interval up to `v` is generated by a classical causal model, the value returned is
not below `v` by the tolerance or more. -/
theorem C66_bisection_not_below_classical (hI : I.Accepted) (hD : WellFormed I.D) (hso : HasSources I.D) (hV : Setup I cols ch name B) {solver : Args → SolverOut} {h0 : List (Call Mon)}
    (hR : Ready B solver h0) (hnb : NoBounds h0) {cert : Args → Option (List γ)} {sym : List (Mon × Expr)} {P : Rat → List Nat → Rat} (hsym : Family I B P sym) {o : Options} (hlpi : o.lpi = false)
    {dual : Bool} {δ : ℝ} (hS : Trusted cols.length B dual δ solver) (hp : 0 < o.precision) (hδ : δ < ((o.precision / 2048 : Rat) : ℝ)) (hb : o.b0 < o.b1) (hxt : 0 ≤ o.xtol) (hrt : 0 ≤ o.rtol)
    {x v : Rat} (h : found (maxBisect B.env solver cert sym o (run B.env solver h0)) = some x)
    (hm : ∀ u, o.b0 ≤ u → u ≤ v → ∃ (Λ : Type) (_ : Fintype Λ) (M : CausalModel I.D I.outcomes I.priv Λ ℝ), M.Generates fun t => ((P u t : Rat) : ℝ)) : v - (o.xtol + o.rtol * |x|) < x :=
  not_below hxt hrt (C66_bisection_excludes_classical_distributions hI hD hso hV hR hnb hsym hlpi hS hp hδ hb h) fun u h1 h2 hE => by
    obtain ⟨Λ, i, M, hM⟩ := hm u h1 h2
    exact hE Λ M hM

/-- **C66, bisection does not miss quantum networks.** What is missing: `BoundsSafe` (see C46). -/
theorem C66_bisection_not_below_quantum_partial (hI : I.Accepted) (hV : Setup I cols ch name B) (hs : BoundsSafe I B) {solver : Args → SolverOut} {h0 : List (Call Mon)}
    (hR : Ready B solver h0) (hnb : NoBounds h0) {cert : Args → Option (List γ)} {sym : List (Mon × Expr)} {P : Rat → List Nat → Rat} (hsym : Family I B P sym) {o : Options} (hlpi : o.lpi = false)
    {dual : Bool} {δ : ℝ} (hS : Trusted cols.length B dual δ solver) (hp : 0 < o.precision) (hδ : δ < ((o.precision / 2048 : Rat) : ℝ)) (hb : o.b0 < o.b1) (hxt : 0 ≤ o.xtol) (hrt : 0 ≤ o.rtol)
    {x v : Rat} (h : found (maxBisect B.env solver cert sym o (run B.env solver h0)) = some x)
    (hm : ∀ u, o.b0 ≤ u → u ≤ v → ∃ (A : Type) (_ : Fintype A) (_ : DecidableEq A) (N : QuantumNetwork I A), N.Generates fun t => ((P u t : Rat) : ℂ)) : v - (o.xtol + o.rtol * |x|) < x :=
  not_below hxt hrt (C66_bisection_excludes_quantum_distributions_partial hI hV hs hR hnb hsym hlpi hS hp hδ hb h) fun u h1 h2 hE => by
    obtain ⟨A, i, j, N, hN⟩ := hm u h1 h2
    exact hE A N hN

/-! ### Certificates -/

/-- Different moments of the program have different names, and no moment has the name of the constant term. -/
def NamesDiffer (B : Built) (nameOf : Option Mon → String) : Prop :=
  ∀ y z : Option Mon, (∀ m, y = some m → m ∈ B.env.moments) → (∀ m, z = some m → m ∈ B.env.moments) → nameOf y = nameOf z → y = z

theorem known_moments {s : St} {a : Args} (ha : solverArgs B.env s = some a) : ∀ t ∈ a.known, ∀ m, t.1 = some m → m ∈ B.env.moments := by
  unfold solverArgs at ha
  split at ha
  swap
  · cases ha
  rename_i hk
  rw [← Option.some.inj ha]
  intro t ht m e
  rcases List.mem_append.1 ht with ht | ht
  · obtain ⟨u, hu, rfl⟩ := List.mem_map.1 ht
    obtain rfl := Option.some.inj e
    simpa using List.all_eq_true.1 hk u.1 (List.mem_map.2 ⟨u, hu, rfl⟩)
  · rw [List.mem_singleton.1 ht] at e
    cases e

/-- A certificate found during the search is not negative at the parameters that a model explains. -/
theorem certificate_sound {R : Type} [Ring R] [StarRing R] [Algebra ℝ R] [StarModule ℝ R] {M : InflatedModel I R} (hV : Setup I cols ch name B) {solver : Args → SolverOut} {h0 : List (Call Mon)}
    (hR : Ready B solver h0) (hM : Admissible B h0 M) {nameOf : Option Mon → String} (hN : NamesDiffer B nameOf) {cert : Args → Option (List (String × Rat))}
    (hC : TrustedCertificate cols.length B nameOf cert) {sym : List (Mon × Expr)} (hsym : ∀ t ∈ sym, t.1 ∈ B.env.moments) {vals : List (Mon × Option Rat)} {ob : Bool} {s : St} {a : Args}
    (A : AskedAt B solver h0 vals ob s a) {c : List (String × Rat)} (hc : cert a = some c) {g : Rat → Rat} (hg : certFunction (symbolNames (fun m => nameOf (some m)) sym) c = some g) {p : Rat}
    (hp : Agrees M sym p) : 0 ≤ g p := by
  obtain ⟨h, -, hA⟩ := A.asked hV hR M hM.bounds
  obtain ⟨fl, P, Z, mi, me, f1, f2, f3, hP, hD, hdrop, hnames⟩ := hC a c A.objective hc
  have h0 := C57_feasibility_certificate_is_valid_partial hA hM.default f1 f3 hP hD
  have hknown := prep_known hA.input_ok (fun _ => f3) (masks_ne_nil _ _ _) hP
  set C := P.certificate true (fun x => decide (|x| ≤ 1 / 100000000)) Z mi me with hCdef
  -- dropped entries are zero
  have hval : P.certAt true Z mi me (values M) = (C.map fun t => t.2 * values M t.1).sum := by
    rw [hCdef]
    unfold SdpSolver.Prep.certAt SdpSolver.Prep.certificate
    have : ∀ l : List (Option Mon × ℝ), (∀ t ∈ l, |P.certEntry true Z mi me t.1| ≤ 1 / 100000000 → P.certEntry true Z mi me t.1 = 0) →
        (l.map fun t => P.certEntry true Z mi me t.1 * values M t.1).sum =
          (((l.map fun t => (t.1, P.certEntry true Z mi me t.1)).filter fun t => !decide (|t.2| ≤ 1 / 100000000)).map fun t => t.2 * values M t.1).sum := by
      intro l
      induction l with
      | nil => intro _; rfl
      | cons t l ih =>
        intro hl
        have ih := ih fun u hu => hl u (List.mem_cons_of_mem _ hu)
        rw [List.map_cons, List.map_cons, List.filter_cons, List.sum_cons, ih]
        by_cases hd : |P.certEntry true Z mi me t.1| ≤ 1 / 100000000
        · rw [if_neg (by simpa using hd), hl t (List.mem_cons_self ..) hd, zero_mul, zero_add]
        · rw [if_pos (by simpa using hd), List.map_cons, List.sum_cons]
    exact this P.known hdrop
  rw [hval] at h0
  have hkeys : ∀ u ∈ C, ∀ m, u.1 = some m → m ∈ B.env.moments := by
    intro u hu m e
    rw [hCdef] at hu
    obtain ⟨w, hw, rfl⟩ := List.mem_map.1 (List.mem_of_mem_filter hu)
    rw [hknown] at hw
    obtain ⟨w', hw', rfl⟩ := List.mem_map.1 (show w ∈ realRow a.known from hw)
    exact known_moments A.args w' hw' m e
  have hin := certFunction_isSome _ _ hg
  rw [certFunction_eq _ _ hg]
  have hz : List.Forall₂ (fun (t : String × Rat) (u : Option Mon × ℝ) => t.1 = nameOf u.1 ∧ ((t.2 : Rat) : ℝ) = u.2) c C := by
    rw [List.forall₂_iff_get]
    refine ⟨by simpa using congrArg List.length hnames, fun i h1 h2 => ?_⟩
    have hi := List.getElem_of_eq hnames (by simpa using h1 : i < _)
    simp only [List.getElem_map] at hi
    exact ⟨congrArg Prod.fst hi, congrArg Prod.snd hi⟩
  have hz' : List.Forall₂ (fun (t : String × Rat) (u : Option Mon × ℝ) => ((((symbolNames (fun m => nameOf (some m)) sym t.1).getD fun _ => 0) p * t.2 : Rat) : ℝ) = u.2 * values M u.1) c C := by
    rw [List.forall₂_iff_get] at hz ⊢
    refine ⟨hz.1, fun i h1 h2 => ?_⟩
    obtain ⟨e1, e2⟩ := hz.2 i h1 h2
    obtain ⟨g', hg'⟩ := Option.isSome_iff_exists.1 (hin _ (List.get_mem c ⟨i, h1⟩))
    obtain ⟨w, hw, hwn, hwg⟩ := symbolNames_some hg'
    have hu : (some w.1 : Option Mon) = (List.get C ⟨i, h2⟩).1 :=
      hN _ _ (fun m e => Option.some.inj e ▸ hsym w hw) (hkeys _ (List.get_mem _ _)) (hwn.trans e1)
    rw [hg', Option.getD_some, Rat.cast_mul, e2, ← hu, ← hwg, mul_comm]
    congr 1
    exact (hp w hw).1.symm
  have hsum : (((c.map fun t => ((symbolNames (fun m => nameOf (some m)) sym t.1).getD fun _ => 0) p * t.2).sum : Rat) : ℝ) = (C.map fun t => t.2 * values M t.1).sum := by
    rw [Rat.cast_list_sum, List.map_map]
    congr 1
    exact List.forall₂_eq_eq_eq ▸ (List.forall₂_map_left_iff.2 (List.forall₂_map_right_iff.2 hz'))
  rw [← hsum] at h0
  exact Rat.cast_nonneg.1 h0

/-- The function minimised comes from a certificate and is not negative at the parameters that an admissible model explains. -/
def FromCertificate (nameOf : Option Mon → String) (cert : Args → Option (List (String × Rat))) (sym : List (Mon × Expr)) (g : Rat → Rat) : Prop :=
  ∃ a c, cert a = some c ∧ certFunction (symbolNames (fun m => nameOf (some m)) sym) c = some g

theorem certifies (hV : Setup I cols ch name B) {solver : Args → SolverOut} {h0 : List (Call Mon)} (hR : Ready B solver h0) {nameOf : Option Mon → String} (hN : NamesDiffer B nameOf)
    {cert : Args → Option (List (String × Rat))} (hC : TrustedCertificate cols.length B nameOf cert) {sym : List (Mon × Expr)} (hsym : ∀ t ∈ sym, t.1 ∈ B.env.moments) {o : Options} (hlpi : o.lpi = false) :
    Certifies B.env solver cert (fun m => nameOf (some m)) sym o (Reached B solver h0) fun g => FromCertificate nameOf cert sym g ∧
      ∀ (p : Rat) (R : Type) [Ring R] [StarRing R] [Algebra ℝ R] [StarModule ℝ R] (M : InflatedModel I R), Admissible B h0 M → Agrees M sym p → 0 ≤ g p := by
  intro v s g hs hn hg
  rw [hlpi] at hn hg ⊢
  obtain ⟨a, hA, hr, ha, -⟩ := round hV hR hs hn
  obtain ⟨c, hc, hg⟩ := Option.bind_eq_some_iff.1 hg
  unfold certificateOf at hc
  rw [ha, Option.bind_some] at hc
  exact ⟨hr, ⟨a, c, hc, hg⟩, fun p R _ _ _ _ M hM hp => certificate_sound hV hR hM hN hC hsym hA hc hg hp⟩

/-- The core of the theorems on the search with certificates. -/
theorem dual_core (hV : Setup I cols ch name B) {solver : Args → SolverOut} {h0 : List (Call Mon)} (hR : Ready B solver h0) {nameOf : Option Mon → String} (hN : NamesDiffer B nameOf)
    {cert : Args → Option (List (String × Rat))} (hC : TrustedCertificate cols.length B nameOf cert) {sym : List (Mon × Expr)} (hsym : ∀ t ∈ sym, t.1 ∈ B.env.moments) {o : Options} (hlpi : o.lpi = false)
    {minimize : (Rat → Rat) → Rat} (hm : ∀ g, FromCertificate nameOf cert sym g → IsGlobalMax o.b0 o.b1 g (minimize g)) {fuel : Nat} {x : Rat} {bounds : List (Rat × Rat)} {s' : St}
    (h : maxDual B.env solver cert (fun m => nameOf (some m)) sym minimize o fuel (run B.env solver h0) = some (some (x, bounds), s')) {p : Rat} (hp0 : o.b0 ≤ p) (hp1 : p ≤ o.b1)
    {R : Type} [Ring R] [StarRing R] [Algebra ℝ R] [StarModule ℝ R] (M : InflatedModel I R) (hM : Admissible B h0 M) (hv : Agrees M sym p) : p ≤ x ∧ ∀ t ∈ bounds, p ≤ t.2 := by
  obtain ⟨h1, t, ht, h2⟩ := maxDual_spec (certifies hV hR hN hC hsym hlpi) (P := Reached B solver h0) ⟨[], by simp, by simpa using hR.ok, by simp⟩ h
  have hall : ∀ t ∈ bounds, p ≤ t.2 := by
    intro t ht
    obtain ⟨g, ⟨hg, hpos⟩, e⟩ := h1 t ht
    rw [e]
    exact (hm g hg).2.2 p hp0 hp1 (hpos p R M hM hv)
  exact ⟨(hall t ht).trans h2, hall⟩

/-- **C66, the search with certificates does not miss models of the inflated network.** If the inner optimisation finds the largest parameter at which a certificate is not negative, every parameter of the
interval explained by a model is at most the returned value, and at most every intermediate bound. What is missing: the default lower bounds (see C46). -/
theorem C66_certificates_not_below_operators_partial (hV : Setup I cols ch name B) (hs : BoundsSafe I B) {solver : Args → SolverOut} {h0 : List (Call Mon)} (hR : Ready B solver h0)
    {nameOf : Option Mon → String} (hN : NamesDiffer B nameOf)
    {cert : Args → Option (List (String × Rat))} (hC : TrustedCertificate cols.length B nameOf cert) {sym : List (Mon × Expr)} (hsym : ∀ t ∈ sym, t.1 ∈ B.env.moments) {o : Options} (hlpi : o.lpi = false)
    {minimize : (Rat → Rat) → Rat} (hm : ∀ g, FromCertificate nameOf cert sym g → IsGlobalMax o.b0 o.b1 g (minimize g)) {fuel : Nat} {x : Rat} {bounds : List (Rat × Rat)} {s' : St}
    (h : maxDual B.env solver cert (fun m => nameOf (some m)) sym minimize o fuel (run B.env solver h0) = some (some (x, bounds), s')) {p : Rat} (hp0 : o.b0 ≤ p) (hp1 : p ≤ o.b1)
    {R : Type} [Ring R] [StarRing R] [Algebra ℝ R] [StarModule ℝ R] (M : InflatedModel I R) (hM : ∀ c ∈ h0, BoundsTrue M.moment c) (hv : Agrees M sym p) : p ≤ x ∧ ∀ t ∈ bounds, p ≤ t.2 :=
  dual_core hV hR hN hC hsym hlpi hm h hp0 hp1 M ⟨hM, C46_moments_nonneg M hs⟩ hv

/-- **C66, the search with certificates does not miss classical models.** -/
theorem C66_certificates_not_below_classical (hI : I.Accepted) (hD : WellFormed I.D) (hso : HasSources I.D) (hV : Setup I cols ch name B) {solver : Args → SolverOut} {h0 : List (Call Mon)}
    (hR : Ready B solver h0) {nameOf : Option Mon → String} (hN : NamesDiffer B nameOf)
    {cert : Args → Option (List (String × Rat))} (hC : TrustedCertificate cols.length B nameOf cert) {sym : List (Mon × Expr)} (hsym : ∀ t ∈ sym, t.1 ∈ B.env.moments) {o : Options} (hlpi : o.lpi = false)
    {minimize : (Rat → Rat) → Rat} (hm : ∀ g, FromCertificate nameOf cert sym g → IsGlobalMax o.b0 o.b1 g (minimize g)) {fuel : Nat} {x : Rat} {bounds : List (Rat × Rat)} {s' : St}
    (h : maxDual B.env solver cert (fun m => nameOf (some m)) sym minimize o fuel (run B.env solver h0) = some (some (x, bounds), s')) {p : Rat} (hp0 : o.b0 ≤ p) (hp1 : p ≤ o.b1)
    {Λ : Type} [Fintype Λ] (M : CausalModel I.D I.outcomes I.priv Λ ℝ) (hM : ∀ c ∈ h0, BoundsTrue (inflated hI hD hso M).moment c) (hv : Agrees (inflated hI hD hso M) sym p) :
    p ≤ x ∧ ∀ t ∈ bounds, p ≤ t.2 :=
  dual_core hV hR hN hC hsym hlpi hm h hp0 hp1 (inflated hI hD hso M) ⟨hM, fun m _ => classical_nonneg hI _ _ m⟩ hv

end Verif.SdpSearch

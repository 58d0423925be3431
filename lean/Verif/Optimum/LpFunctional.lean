import Verif.Optimum.Lp
import Verif.Distinct.Props
/-!
C65 for the linear program, functionals of distributions and written objectives: the value of a functional (such as a Bell expression) at every distribution that a model of the graph generates is bounded by
the reported optimum; the value of an objective written as products of operators is the probability of the written events.
-/
namespace Verif.Optimum
open Verif.Common Verif.Moment Verif.State Verif.Scenario
open Verif.Orbits (flatnonzero)
open Verif.EndToEnd (Input ClassicalModel CausalModel WellFormed valF dictValF lpEnv_some toSolver atomMarginal_sound toClassical_realises monomials_good GoodRanks)
open Verif.EndToEnd.ClassicalModel (Capacity)
open Verif.Theory (InflatedTheory ofQuantum)
open Verif.SdpEnd (copiesOf)
open Verif.Distinct (lpEnv_exists columns_capacity run_ready mentions)
open Verif.QuantumNet (QuantumNetwork inflate generates_of_network)

variable {I : Input} {F : Type} [Field F] [LinearOrder F] [IsStrictOrderedRing F]

/-- What the code computes for a knowable moment from a distribution (`compute_marginal`, lp/monomial_classes.py 341-366). -/
def marginalOf (I : Input) (P : List Nat → Rat) (m : Mon) : Option Rat := (m.mapM (I.atomMarginal P)).map List.prod

/-- The value of a functional at a distribution; `none` if a marginal cannot be computed. -/
def functionalAt (I : Input) (P : List Nat → Rat) (d : List (Mon × Rat)) : Option Rat := (d.mapM fun t => (marginalOf I P t.1).map fun x => t.2 * x).map List.sum

/-- A functional of the distribution: all its moments are variables of the program and can be computed from the distribution. -/
def Functional (I : Input) (d : List (Mon × Rat)) : Prop := ∀ t ∈ d, t.1 ∈ I.monomials ∧ ∀ a ∈ t.1, I.knowable a = true

omit [LinearOrder F] [IsStrictOrderedRing F] in
theorem marginalOf_value {P : List Nat → Rat} {val : Atom → F} [CharZero F] {m : Mon} (h : ∀ a ∈ m, ∃ v, I.atomMarginal P a = some v ∧ ((v : Rat) : F) = val a) :
    ∃ x, marginalOf I P m = some x ∧ ((x : Rat) : F) = valF val m := by
  unfold marginalOf
  induction m with
  | nil => exact ⟨1, rfl, by simp [valF]⟩
  | cons a m ih =>
    obtain ⟨v, e1, e2⟩ := h a (by simp)
    obtain ⟨x, e3, e4⟩ := ih fun b hb => h b (by simp [hb])
    obtain ⟨l, hl, hx⟩ := Option.map_eq_some_iff.1 e3
    refine ⟨v * x, ?_, ?_⟩
    · rw [List.mapM_cons, e1, hl]
      simp [hx]
    · rw [Rat.cast_mul, e2, e4]
      simp [valF]

omit [LinearOrder F] [IsStrictOrderedRing F] in
theorem functionalAt_value {P : List Nat → Rat} {val : Atom → F} [CharZero F] {d : List (Mon × Rat)} (h : ∀ t ∈ d, ∀ a ∈ t.1, ∃ v, I.atomMarginal P a = some v ∧ ((v : Rat) : F) = val a) :
    ∃ x, functionalAt I P d = some x ∧ ((x : Rat) : F) = (d.map fun t => ((t.2 : Rat) : F) * valF val t.1).sum := by
  unfold functionalAt
  induction d with
  | nil => exact ⟨0, rfl, by simp⟩
  | cons t d ih =>
    obtain ⟨v, e1, e2⟩ := marginalOf_value (h t (by simp))
    obtain ⟨x, e3, e4⟩ := ih fun b hb => h b (by simp [hb])
    obtain ⟨l, hl, hx⟩ := Option.map_eq_some_iff.1 e3
    refine ⟨t.2 * v + x, ?_, ?_⟩
    · rw [List.mapM_cons, e1, hl]
      simp [hx]
    · rw [Rat.cast_add, Rat.cast_mul, e2, e4]
      simp

/-- A fresh program with an objective. -/
theorem fresh_ready (hI : I.Accepted) (hS : copiesOf I.scenario ≤ 254) {name : Atom → String} {E : Env Mon} (hE : I.lpEnv name = some E) (solver : Args → SolverOut) {d : List (Mon × Rat)}
    (hd : ∀ t ∈ d, t.1 ∈ I.monomials) (maxi : Bool) : ∃ a, solverArgs E (run E solver ([] ++ .setObjective (some d) maxi :: [])) = some a ∧ a.lower = [] := by
  obtain ⟨E', h1, h2, h3, h4⟩ := lpEnv_exists hI hS name
  have : E' = E := Option.some.inj (h1.symm.trans hE)
  subst this
  have hr := run_ready h2 solver ([] ++ .setObjective (some d) maxi :: []) (by
    intro c hc m hm
    rw [List.nil_append, List.mem_singleton] at hc
    subst hc
    obtain ⟨t, ht, rfl⟩ := List.mem_map.1 (show m ∈ d.map fun t => E'.san t.1 from hm)
    rw [h4, h3]
    exact hd t ht)
  obtain ⟨a, ha⟩ := hr.solverArgs (run_good E' solver _)
  refine ⟨a, ha, ?_⟩
  obtain ⟨_, _, _, _, _, _, _, _, h6, _⟩ := solverArgs_some E' _ a ha
  have e2 : (run E' solver ([] ++ .setObjective (some d) maxi :: [])).lower = [] := by
    show (setValues E' [] false false _).lower = []
    rw [EndToEnd.setValues_lower E' h2.supports]
    rfl
  rw [e2] at h6
  exact (Option.some.inj h6).symm

section
variable {name : Atom → String} {E : Env Mon} {solver : Args → SolverOut} {d : List (Mon × Rat)} {maxi : Bool} {dual nonneg : Bool} {δ : F} {status : String} {v : Rat}

/-- **C65, functionals of classically generated distributions.** Build the linear program, set a functional of the distribution as objective and solve. If the solver is right up to `δ`, then for every
distribution that some classical causal model of the graph generates, over any finite alphabets, the code computes a value of the functional, and that value is bounded by the reported optimum. -/
theorem C65_lp_functional_classical (hI : I.Accepted) (hD : WellFormed I.D) (hS : copiesOf I.scenario ≤ 254) (hE : I.lpEnv name = some E) (hf : Functional I d)
    (hd : ∀ t ∈ d, isClose0 t.2 = true → t.2 = 0) (hT : TrustedLp F I.columns.length dual nonneg δ solver)
    (hv : (run E solver [.setObjective (some d) maxi, .solve]).result = .solved status v) :
    ∀ (Λ : Type) [Fintype Λ] (M : CausalModel I.D I.outcomes I.priv Λ F) (P : List Nat → Rat), (M.Generates fun t => ((P t : Rat) : F)) →
      ∃ x, functionalAt I P d = some x ∧ BoundedBy maxi δ ((x : Rat) : F) ((v : Rat) : F) := by
  intro Λ _ M P hP
  have hR := toClassical_realises hI hD M hP
  obtain ⟨x, hx, hxv⟩ := functionalAt_value (I := I) (P := P) (d := d) (val := (M.toClassical hD).event) fun t ht a ha =>
    atomMarginal_sound hI (M.toClassical hD) hR (monomials_good hI _ (hf t ht).1 a ha) ((hf t ht).2 a ha)
  refine ⟨x, hx, ?_⟩
  obtain ⟨a, ha, hl⟩ := fresh_ready hI hS hE solver (fun t ht => (hf t ht).1) maxi
  rw [hxv]
  exact C65_lp_bound_classical hI (M.toClassical hD) (columns_capacity hI hS) hE hd (fun c hc => by
    rw [List.nil_append, List.mem_singleton] at hc
    subst hc
    exact .direct trivial) (by simp) hT ha (by rw [hl]; simp) hv

/-- **C65, functionals in physical theories**, for a nonfanout inflation. -/
theorem C65_lp_functional_theories (hI : I.Accepted) (hS : copiesOf I.scenario ≤ 254) (hE : I.lpEnv name = some E) (hf : Functional I d)
    (hd : ∀ t ∈ d, isClose0 t.2 = true → t.2 = 0) (hT : TrustedLp F I.columns.length dual nonneg δ solver)
    (hv : (run E solver [.setObjective (some d) maxi, .solve]).result = .solved status v) (T : InflatedTheory I F) {P : List Nat → Rat} (hP : T.Generates fun t => ((P t : Rat) : F)) :
    ∃ x, functionalAt I P d = some x ∧ BoundedBy maxi δ ((x : Rat) : F) ((v : Rat) : F) := by
  obtain ⟨x, hx, hxv⟩ := functionalAt_value (I := I) (P := P) (d := d) (val := T.event) fun t ht a ha =>
    T.atomMarginal_sound hI hP (monomials_good hI _ (hf t ht).1 a ha) ((hf t ht).2 a ha)
  refine ⟨x, hx, ?_⟩
  obtain ⟨a, ha, hl⟩ := fresh_ready hI hS hE solver (fun t ht => (hf t ht).1) maxi
  rw [hxv]
  exact C65_lp_bound_theories hI T (columns_capacity hI hS) hE hd (fun c hc => by
    rw [List.nil_append, List.mem_singleton] at hc
    subst hc
    exact .direct trivial) (by simp) hT ha (by rw [hl]; simp) hv

end

/-- **C65, functionals of quantum networks**: density matrices, local projective measurements of any dimension, the Born rule. -/
theorem C65_lp_functional_quantum_networks {name : Atom → String} {E : Env Mon} {solver : Args → SolverOut} {d : List (Mon × Rat)} {maxi : Bool} {dual nonneg : Bool} {δ : ℝ} {status : String} {v : Rat}
    (hI : I.Accepted) (hS : copiesOf I.scenario ≤ 254) (hE : I.lpEnv name = some E) (hf : Functional I d)
    (hd : ∀ t ∈ d, isClose0 t.2 = true → t.2 = 0) (hT : TrustedLp ℝ I.columns.length dual nonneg δ solver)
    (hv : (run E solver [.setObjective (some d) maxi, .solve]).result = .solved status v) :
    ∀ (A : Type) [Fintype A] [DecidableEq A] (N : QuantumNetwork I A) (P : List Nat → Rat), (N.Generates fun t => ((P t : Rat) : ℂ)) →
      ∃ x, functionalAt I P d = some x ∧ BoundedBy maxi δ ((x : Rat) : ℝ) ((v : Rat) : ℝ) := by
  intro A _ _ N P hP
  exact C65_lp_functional_theories hI hS hE hf hd hT hv (ofQuantum (inflate N hI)) (generates_of_network N hI hP)

/-! ### Objectives written as products of operators -/

open Verif.Sanitise (sanitise Reachable NamesOk RanksFit valueOf probability Form Session monomialOf_value reachable_inv readRanks_fit)
open Verif.Text (Str)

omit [IsStrictOrderedRing F] in
/-- The two ways of evaluating a moment of the program agree. -/
theorem valueOf_monomial {Λ : Type} [Fintype Λ] (hI : I.Accepted) (M : ClassicalModel I.scenario I.observed Λ F) {m : Mon} (hm : m ∈ I.monomials) : valueOf M m = valF M.event m := by
  unfold valueOf valF
  congr 1
  apply List.map_congr_left
  intro a ha
  have hg := monomials_good hI m hm a ha
  exact M.vec_boolKey (hg.sorted.imp Nat.ne_of_lt) hg.lt

/-- `_sanitise_dict`, InflationLP.py 1110-1135: the keys of the dictionary, written as lists of operator numbers, are turned into moments one after the other. -/
def Written (I : Input) (names order : List Str) (w : List (List Nat × Rat)) (d : List (Mon × Rat)) : Prop :=
  List.Forall₂ (fun x t => t.2 = x.2 ∧ (∀ r ∈ x.1, r < I.scenario.lexorder.length) ∧
    ∃ s s' : Session, Reachable I names order s ∧ sanitise I names order s (.array1 x.1) = some (s', t.1)) w d

/-- **C65, written objectives.** The objective is a combination of products of operators, given by their numbers; the reported optimum bounds the same combination of the probabilities that all the operators of a
product happen in the inflated network of the model. What is missing: problems with more operators than the integer type of the code can count (see C60). -/
theorem C65_lp_written_bound_partial {name : Atom → String} {E : Env Mon} {solver : Args → SolverOut} {h h' : List (Call Mon)} {d : List (Mon × Rat)} {maxi : Bool} {dual nonneg : Bool} {δ : F}
    {status : String} {v : Rat} {Λ : Type} [Fintype Λ] (hI : I.Accepted) (hS : copiesOf I.scenario ≤ 254) (M : ClassicalModel I.scenario I.observed Λ F) {names order : List Str}
    (hN : NamesOk I names) (hfit : RanksFit I.scenario)
    (hE : I.lpEnv name = some E) {w : List (List Nat × Rat)} (hw : Written I names order w d) (hm : ∀ t ∈ d, t.1 ∈ I.monomials)
    (hd : ∀ t ∈ w, isClose0 t.2 = true → t.2 = 0) (hh : ∀ c ∈ h ++ .setObjective (some d) maxi :: h', EndToEnd.Truthful I M E c)
    (hk : ∀ c ∈ h', KeepsObjective c) (hT : TrustedLp F I.columns.length dual nonneg δ solver)
    {a : Args} (ha : solverArgs E (run E solver (h ++ .setObjective (some d) maxi :: h')) = some a) (hlb : dual = true → ∀ t ∈ a.lower, 0 ≤ t.2)
    (hv : (run E solver (h ++ .setObjective (some d) maxi :: h' ++ [.solve])).result = .solved status v) :
    BoundedBy maxi δ (w.map fun x => ((x.2 : Rat) : F) * probability M x.1).sum ((v : Rat) : F) := by
  have hd' : ∀ t ∈ d, isClose0 t.2 = true → t.2 = 0 := by
    intro t ht
    obtain ⟨x, hx, e, _⟩ := Sanitise.forall2_mem_right hw ht
    rw [e]
    exact hd x hx
  have := C65_lp_bound_classical hI M (columns_capacity hI hS) hE hd' hh hk hT ha hlb hv
  have e : (w.map fun x => ((x.2 : Rat) : F) * probability M x.1) = d.map fun t => ((t.2 : Rat) : F) * valF M.event t.1 := by
    clear this hd' hh hd hv ha
    unfold Written at hw
    induction hw with
    | nil => rfl
    | @cons x t w d hx _ ih =>
      obtain ⟨e1, e2, s, s', hr, es⟩ := hx
      rw [List.map_cons, List.map_cons, ih fun u hu => hm u (by simp [hu]), e1]
      congr 2
      have e3 : sanitise I names order s (.array1 x.1) = some (Sanitise.monomial I names s x.1) := readRanks_fit hfit e2
      have e4 : t.1 = (Sanitise.monomial I names s x.1).2 := by
        rw [e3] at es
        rw [Option.some.inj es]
      rw [← valueOf_monomial hI M (hm t (by simp)), e4]
      exact (monomialOf_value M hS (reachable_inv hI hN hr).1.cache e2).symm
  rw [e]
  exact this

end Verif.Optimum

import Verif.Optimum.Sdp
import Verif.Sanitise.Read
/-!
C65 for the semidefinite program: how products of operators written by the user are read, and functionals of distributions.
-/
namespace Verif.Optimum
open Verif.Common Verif.Moment Verif.Scenario Verif.SdpEnd Verif.Canon Verif.Normalization
open Verif.SdpRepr (Memo Mem canonMemo)
open Verif.State (Dict Mon)
open Verif.EndToEnd (Input CausalModel WellFormed dictValF userValF sanitise_valF toClassical_realises)
open Verif.QuantumNet (QuantumNetwork inflate generates_of_network inflatedState opAt opRank_sdpRank)
open Verif.Sanitise (wrapOp wrapOp_valid)
open Verif.Theory (ofQuantum realises_of_generates sdpRank sdpRank_lt sdpRank_get)

variable {I : Input}

/-! ### Reading a product of operators -/

/-- `mon_to_lexrepr`, InflationSDP.py 2293-2316, with the conversion to `np_dtype`; `none` is a `KeyError`. -/
def ranksOf (I : Input) (rows : List Op) : Option (List Nat) := (rows.map (wrapOp I.scenario)).mapM fun x => I.scenario.sdpLexorder.idxOf? x

/-- The branch of `_sanitise_moment` for two-dimensional arrays, InflationSDP.py 1556-1564, given the dictionary of canonical forms of that moment: the canonical form of the product, then `Moment_1d`. -/
def readProduct (I : Input) (ch : Choice) (name : Atom → String) (c : Memo) (rows : List Op) : Option (Memo × Mon) :=
  (ranksOf I rows).map fun w =>
    let r := canonMemo (notcomm I) (orthomat I) (allCommute I) c false w
    (r.1, momentOf I ch name r.2)

theorem idxOf_sdp {x : Op} (h : Valid I.scenario x) : I.scenario.sdpLexorder.idxOf? x = some (sdpRank I x) := by
  have hm := (mem_lexorder I.scenario).2 h
  have hz : zeroOp I.scenario.nSources ≠ x := by
    rintro rfl
    exact absurd h.party_pos (by simp [zeroOp])
  unfold Scenario.sdpLexorder sdpRank
  rw [List.idxOf?_cons, if_neg (by simpa using hz), List.idxOf?_eq_some_iff.2 ⟨List.idxOf_lt_length_of_mem hm, List.getElem_idxOf _, fun j hj => by
    rw [← ne_eq]
    have := List.not_of_lt_findIdx (p := (· == x)) (xs := I.scenario.lexorder) (i := j) hj
    simpa using this⟩]
  rfl

theorem ranksOf_valid {rows : List Op} (h : ∀ x ∈ rows, Valid I.scenario x) : ranksOf I rows = some (rows.map (sdpRank I)) := by
  unfold ranksOf
  induction rows with
  | nil => rfl
  | cons x l ih =>
    rw [List.map_cons, List.mapM_cons, wrapOp_valid (h x (by simp)), idxOf_sdp (h x (by simp)), ih fun y hy => h y (by simp [hy])]
    rfl

theorem inRange_ranks {rows : List Op} (h : ∀ x ∈ rows, Valid I.scenario x) : InRange I (rows.map (sdpRank I)) := by
  intro a ha
  obtain ⟨x, hx, rfl⟩ := List.mem_map.1 ha
  exact sdpRank_lt (h x hx)

/-- The value of the moment read for a product of operators is the expectation value of the product. -/
theorem readProduct_value {R : Type} [Ring R] [StarRing R] [Algebra ℝ R] (M : InflatedModel I R) (hS : copiesOf I.scenario ≤ 254) {ch : Choice} (hch : ch.Computed I) (name : Atom → String)
    {m : Mem} (hm : Reached I m) {rows : List Op} (h : ∀ x ∈ rows, Valid I.scenario x) :
    ∃ r, readProduct I ch name m.canon rows = some r ∧ M.value r.2 = (M.φ ((rows.map fun x => M.ρ (sdpRank I x)).prod)).re := by
  unfold readProduct
  rw [ranksOf_valid h]
  refine ⟨_, rfl, ?_⟩
  have hw := inRange_ranks h
  obtain ⟨h1, h2⟩ := (canonMemo_sound M (reached_sound M hm).1 false (rows.map (sdpRank I))).2 hw
  show M.value (momentOf I ch name _) = _
  rw [momentOf_re M hch name h1 fun h0 => capacity_word hS h1 h0, h2]
  unfold op
  rw [List.map_map]
  rfl

/-- `_sanitise_dict`, InflationSDP.py 1578-1592, for keys that are products of operators: they are read one after the other, with whatever has been computed until then. -/
def WrittenSdp (I : Input) (ch : Choice) (name : Atom → String) (w : List (List Op × Rat)) (d : List (Mon × Rat)) : Prop :=
  List.Forall₂ (fun x t => t.2 = x.2 ∧ (∀ o ∈ x.1, Valid I.scenario o) ∧ ∃ m r, Reached I m ∧ readProduct I ch name m.canon x.1 = some r ∧ t.1 = r.2) w d

theorem written_value {R : Type} [Ring R] [StarRing R] [Algebra ℝ R] (M : InflatedModel I R) (hS : copiesOf I.scenario ≤ 254) {ch : Choice} (hch : ch.Computed I) {name : Atom → String}
    {w : List (List Op × Rat)} {d : List (Mon × Rat)} (h : WrittenSdp I ch name w d) :
    (d.map fun t => ((t.2 : Rat) : ℝ) * M.value t.1).sum = (w.map fun t => ((t.2 : Rat) : ℝ) * (M.φ ((t.1.map fun x => M.ρ (sdpRank I x)).prod)).re).sum := by
  unfold WrittenSdp at h
  induction h with
  | nil => rfl
  | @cons x t w d hx _ ih =>
    obtain ⟨e1, e2, m, r, hm, e3, e4⟩ := hx
    obtain ⟨r', e5, e6⟩ := readProduct_value M hS hch name hm e2
    rw [e3] at e5
    rw [List.map_cons, List.map_cons, List.sum_cons, List.sum_cons, ih, e1, e4, Option.some.inj e5, e6]

theorem written_coeff {ch : Choice} {name : Atom → String} {w : List (List Op × Rat)} {d : List (Mon × Rat)} (h : WrittenSdp I ch name w d) (hw : ∀ t ∈ w, isClose0 t.2 = true → t.2 = 0) :
    ∀ t ∈ d, isClose0 t.2 = true → t.2 = 0 := by
  intro t ht
  obtain ⟨x, hx, e, _⟩ := Sanitise.forall2_mem_right h ht
  rw [e]
  exact hw x hx

section
variable {cols : List (List Nat)} {ch : Choice} {name : Atom → String} {B : Built} {solver : SdpState.Args → SdpState.SolverOut} {h h' : List (SdpState.Call Mon)} {a : SdpState.Args}
  {d : List (Mon × Rat)} {w : List (List Op × Rat)} {maxi dual : Bool} {δ : ℝ} {v : Rat}

/-- **C65, semidefinite program, written objectives, operators.** The user writes the objective as a combination of products of operators. The reported optimum bounds, in every model by operators, the same
combination of the expectation values of the products. What is missing: `BoundsSafe` (see C46) and `reset("values")` (see C43). -/
theorem C65_sdp_written_operators_partial {R : Type} [Ring R] [StarRing R] [Algebra ℝ R] [StarModule ℝ R] {M : InflatedModel I R}
    (U : Used I cols ch name B M solver (h ++ .setObjective (some d) maxi :: h') a) (hs : BoundsSafe I B) (hr : ∀ c ∈ h ++ .setObjective (some d) maxi :: h', c ≠ .reset .values)
    (hk : ∀ c ∈ h', KeepsSdpObjective c) (hw : WrittenSdp I ch name w d) (hd : ∀ t ∈ w, isClose0 t.2 = true → t.2 = 0)
    (hT : TrustedSdp cols.length B dual δ solver) (hv : (SdpState.run B.env solver (h ++ .setObjective (some d) maxi :: h' ++ [.solve])).result = .solved v) :
    BoundedBy maxi δ (w.map fun t => ((t.2 : Rat) : ℝ) * (M.φ ((t.1.map fun x => M.ρ (sdpRank I x)).prod)).re).sum ((v : Rat) : ℝ) := by
  rw [← written_value M U.setup.copies U.setup.computed hw]
  exact C65_sdp_bound_operators_partial U hs hr hk (written_coeff hw hd) hT hv

/-- **C65, semidefinite program, written objectives, quantum networks**: density matrices and projective measurements of any dimension; the inflated state is a product of copies of the states of the sources. -/
theorem C65_sdp_written_quantum_networks_partial {A : Type} [Fintype A] [DecidableEq A] (hI : I.Accepted) (N : QuantumNetwork I A)
    (U : Used I cols ch name B (inflate N hI) solver (h ++ .setObjective (some d) maxi :: h') a) (hs : BoundsSafe I B) (hr : ∀ c ∈ h ++ .setObjective (some d) maxi :: h', c ≠ .reset .values)
    (hk : ∀ c ∈ h', KeepsSdpObjective c) (hw : WrittenSdp I ch name w d) (hd : ∀ t ∈ w, isClose0 t.2 = true → t.2 = 0)
    (hT : TrustedSdp cols.length B dual δ solver) (hv : (SdpState.run B.env solver (h ++ .setObjective (some d) maxi :: h' ++ [.solve])).result = .solved v) :
    BoundedBy maxi δ (w.map fun t => ((t.2 : Rat) : ℝ) * (QuantumNet.value (inflatedState N) (t.1.map (opAt N)).prod).re).sum ((v : Rat) : ℝ) := by
  have := C65_sdp_written_operators_partial U hs hr hk hw hd hT hv
  have e : (w.map fun t => ((t.2 : Rat) : ℝ) * (QuantumNet.value (inflatedState N) (t.1.map (opAt N)).prod).re) =
      w.map fun t => ((t.2 : Rat) : ℝ) * ((inflate N hI).φ ((t.1.map fun x => (inflate N hI).ρ (sdpRank I x)).prod)).re := by
    apply List.map_congr_left
    intro t ht
    have hval : ∀ o ∈ t.1, Valid I.scenario o := by
      obtain ⟨u, hu, _, h2, _⟩ := Sanitise.forall2_mem_right hw.flip ht
      exact h2
    have : (t.1.map fun x => (inflate N hI).ρ (sdpRank I x)) = t.1.map (opAt N) := List.map_congr_left fun x hx => opRank_sdpRank N (hval x hx)
    rw [this]
    rfl
  rw [e]
  exact this

end

/-! ### Written objectives in classical models -/

/-- The probability, in the inflated network of a classical model, that all the operators of a list happen; zero if the list has two different outcomes of the same measurement. -/
noncomputable def jointProbability {S : Scenario} {O : EndToEnd.Observed} {Λ : Type} [Fintype Λ] (M : EndToEnd.ClassicalModel S O Λ ℝ) (rows : List Op) : ℝ :=
  open Classical in if ∀ x ∈ rows, ∀ y ∈ rows, x.key = y.key → x = y then M.event (rows.dedup.map fun x => S.lexorder.idxOf x) else 0

theorem joint_value {Λ : Type} [Fintype Λ] (hI : I.Accepted) (hs : Sourced I.scenario) (M : EndToEnd.ClassicalModel I.scenario I.observed Λ ℝ) {rows : List Op} (h : ∀ x ∈ rows, Valid I.scenario x) :
    ((SdpEnd.classical hI hs M).φ ((rows.map fun x => (SdpEnd.classical hI hs M).ρ (sdpRank I x)).prod)).re = jointProbability M rows := by
  have hlt : ∀ x ∈ rows, I.scenario.lexorder.idxOf x < I.scenario.lexorder.length := fun x hx => List.idxOf_lt_length_of_mem ((mem_lexorder I.scenario).2 (h x hx))
  obtain ⟨e, he⟩ : ∃ e : List (Rank I.scenario), rows = e.map fun r => I.scenario.lexorder[r] := by
    clear h
    induction rows with
    | nil => exact ⟨[], rfl⟩
    | cons x l ih =>
      obtain ⟨e, he⟩ := ih fun y hy => hlt y (by simp [hy])
      refine ⟨⟨_, hlt x (by simp)⟩ :: e, ?_⟩
      rw [List.map_cons, ← he]
      congr 1
      exact (List.getElem_idxOf (hlt x (by simp))).symm
  have hg : Function.Injective fun r : Rank I.scenario => I.scenario.lexorder[r] := by
    intro a b hab
    exact Fin.ext ((List.Nodup.getElem_inj_iff (lexorder_nodup I.scenario)).1 hab)
  have hidx : ∀ r : Rank I.scenario, I.scenario.lexorder.idxOf I.scenario.lexorder[r] = r.1 := fun r => (lexorder_nodup I.scenario).idxOf_getElem r.1 r.2
  have hv := classical_val hI hs M e
  unfold InflatedModel.val at hv
  rw [if_pos] at hv
  swap
  · intro x hx
    obtain ⟨r, _, rfl⟩ := List.mem_map.1 hx
    have := r.2
    unfold nOps
    omega
  have hop : (rows.map fun x => (SdpEnd.classical hI hs M).ρ (sdpRank I x)).prod = op (SdpEnd.classical hI hs M).ρ (e.map fun r => r.1 + 1) := by
    unfold op
    rw [he, List.map_map, List.map_map]
    congr 1
    apply List.map_congr_left
    intro r _
    show (SdpEnd.classical hI hs M).ρ (I.scenario.lexorder.idxOf _ + 1) = _
    rw [hidx]
    rfl
  rw [hop, hv, Complex.ofReal_re]
  unfold jointProbability
  have hc : Consistent (question I.scenario) e ↔ ∀ x ∈ rows, ∀ y ∈ rows, x.key = y.key → x = y := by
    rw [he]
    unfold Consistent
    simp only [List.forall_mem_map]
    refine forall₂_congr fun a ha => forall₂_congr fun b hb => ?_
    unfold question
    rw [Subtype.mk.injEq]
    exact ⟨fun hh hk => congrArg _ (hh hk), fun hh hk => hg (hh hk)⟩
  have hdd : rows.dedup.map (fun x => I.scenario.lexorder.idxOf x) = e.dedup.map (·.1) := by
    rw [he, List.dedup_map_of_injective hg, List.map_map]
    apply List.map_congr_left
    intro r _
    exact hidx r
  rw [hdd]
  by_cases hcon : Consistent (question I.scenario) e
  · rw [if_pos hcon, if_pos (hc.1 hcon)]
  · rw [if_neg hcon, if_neg fun hh => hcon (hc.2 hh)]

/-- **C65, semidefinite program, written objectives, classical models.** The reported optimum bounds the combination of the probabilities that all the operators of the written products happen in the inflated
network of the causal model. `reset("values")` is excluded (see C43). -/
theorem C65_sdp_written_classical_partial {Λ : Type} [Fintype Λ] {cols : List (List Nat)} {ch : Choice} {name : Atom → String} {B : Built} (hI : I.Accepted) (hD : WellFormed I.D) (hs : HasSources I.D)
    (M : CausalModel I.D I.outcomes I.priv Λ ℝ) {solver : SdpState.Args → SdpState.SolverOut} {h h' : List (SdpState.Call Mon)} {a : SdpState.Args} {d : List (Mon × Rat)}
    {w : List (List Op × Rat)} {maxi dual : Bool} {δ : ℝ} {v : Rat}
    (U : Used I cols ch name B (inflated hI hD hs M) solver (h ++ .setObjective (some d) maxi :: h') a)
    (hr : ∀ c ∈ h ++ .setObjective (some d) maxi :: h', c ≠ .reset .values) (hk : ∀ c ∈ h', KeepsSdpObjective c) (hw : WrittenSdp I ch name w d) (hd : ∀ t ∈ w, isClose0 t.2 = true → t.2 = 0)
    (hT : TrustedSdp cols.length B dual δ solver) (hv : (SdpState.run B.env solver (h ++ .setObjective (some d) maxi :: h' ++ [.solve])).result = .solved v) :
    BoundedBy maxi δ (w.map fun t => ((t.2 : Rat) : ℝ) * jointProbability (M.toClassical hD) t.1).sum ((v : Rat) : ℝ) := by
  have := C65_sdp_bound_classical_partial hI hD hs M U hr hk (written_coeff hw hd) hT hv
  rw [written_value _ U.setup.copies U.setup.computed hw] at this
  have e : (w.map fun t => ((t.2 : Rat) : ℝ) * jointProbability (M.toClassical hD) t.1) =
      w.map fun t => ((t.2 : Rat) : ℝ) * ((inflated hI hD hs M).φ ((t.1.map fun x => (inflated hI hD hs M).ρ (sdpRank I x)).prod)).re := by
    apply List.map_congr_left
    intro t ht
    obtain ⟨u, _, _, h2, _⟩ := Sanitise.forall2_mem_right hw.flip ht
    rw [← joint_value hI (sourced hD hs) (M.toClassical hD) h2]
    rfl
  rw [e]
  exact this

/-! ### Functionals of distributions -/

/-- The value of a functional at a distribution (`compute_marginal`, lp/monomial_classes.py 341-366); `none` if a marginal cannot be computed. -/
def sdpFunctionalAt (I : Input) (P : List Nat → Rat) (d : List (Mon × Rat)) : Option Rat := (d.mapM fun t => (momentMarginal I P t.1).map fun x => t.2 * x).map List.sum

/-- A functional of the distribution: all its moments are moments of the program and can be computed from the distribution. -/
def SdpFunctional (I : Input) (B : Built) (d : List (Mon × Rat)) : Prop := ∀ t ∈ d, t.1 ∈ B.env.moments ∧ ∀ a ∈ t.1, knowable I a = true

section
variable {R : Type} [Ring R] [StarRing R] [Algebra ℝ R] (M : InflatedModel I R) {cols : List (List Nat)} {ch : Choice} {name : Atom → String} {B : Built}

theorem sdpFunctionalAt_value (hV : Setup I cols ch name B) {P : List Nat → Rat} (hP : M.Realises P) {d : List (Mon × Rat)} (hf : SdpFunctional I B d) :
    ∃ x, sdpFunctionalAt I P d = some x ∧ ((x : Rat) : ℝ) = (d.map fun t => ((t.2 : Rat) : ℝ) * M.value t.1).sum := by
  have hm : ∀ m : Mon, (∀ a ∈ m, GoodAtom I a) → (∀ a ∈ m, knowable I a = true) → ∃ x, momentMarginal I P m = some x ∧ M.moment m = ((x : Rat) : ℂ) := by
    intro m hg hk
    unfold momentMarginal InflatedModel.moment
    induction m with
    | nil => exact ⟨1, rfl, by simp⟩
    | cons a m ih =>
      obtain ⟨v, e1, e2⟩ := knowable_value M hP (hg a (by simp)) (hk a (by simp))
      obtain ⟨x, e3, e4⟩ := ih (fun b hb => hg b (by simp [hb])) fun b hb => hk b (by simp [hb])
      obtain ⟨l, hl, hx⟩ := Option.map_eq_some_iff.1 e3
      refine ⟨v * x, ?_, ?_⟩
      · rw [List.mapM_cons, e1, hl]
        simp [hx]
      · rw [List.map_cons, List.prod_cons, e2, e4]
        push_cast
        rfl
  unfold sdpFunctionalAt
  induction d with
  | nil => exact ⟨0, rfl, by simp⟩
  | cons t d ih =>
    obtain ⟨v, e1, e2⟩ := hm t.1 (moments_good M hV t.1 (hf t (by simp)).1) (hf t (by simp)).2
    obtain ⟨x, e3, e4⟩ := ih fun b hb => hf b (by simp [hb])
    obtain ⟨l, hl, hx⟩ := Option.map_eq_some_iff.1 e3
    refine ⟨t.2 * v + x, ?_, ?_⟩
    · rw [List.mapM_cons, e1, hl]
      simp [hx]
    · rw [Rat.cast_add, Rat.cast_mul, e4, List.map_cons, List.sum_cons]
      congr 2
      unfold InflatedModel.value
      rw [e2]
      simp

variable {solver : SdpState.Args → SdpState.SolverOut} {d : List (Mon × Rat)} {maxi dual : Bool} {δ : ℝ} {v : Rat}

theorem functional_bound [StarModule ℝ R] (hV : Setup I cols ch name B) (hone : [] ∈ cols) (hherm : ∀ m ∈ B.env.hermitian, 0 ≤ M.value m) (hf : SdpFunctional I B d)
    (hd : ∀ t ∈ d, isClose0 t.2 = true → t.2 = 0) (hT : TrustedSdp cols.length B dual δ solver)
    (hv : (SdpState.run B.env solver [.setObjective (some d) maxi, .solve]).result = .solved v) {P : List Nat → Rat} (hP : M.Realises P) :
    ∃ x, sdpFunctionalAt I P d = some x ∧ BoundedBy maxi δ ((x : Rat) : ℝ) ((v : Rat) : ℝ) := by
  obtain ⟨x, hx, e⟩ := sdpFunctionalAt_value M hV hP hf
  refine ⟨x, hx, ?_⟩
  rw [e]
  have ht : ∀ c ∈ ([] ++ SdpState.Call.setObjective (some d) maxi :: [] : List (SdpState.Call Mon)), Truthful I B M c := by
    intro c hc
    rw [List.nil_append, List.mem_singleton] at hc
    subst hc
    exact .direct trivial
  have hcare : ∀ c ∈ ([] ++ SdpState.Call.setObjective (some d) maxi :: [] : List (SdpState.Call Mon)), Careful B.env.moments c := by
    intro c hc
    rw [List.nil_append, List.mem_singleton] at hc
    subst hc
    exact fun t ht => (hf t ht).1
  obtain ⟨hok, a, ha⟩ := C56_no_exception_partial hV hone M hherm solver _ ht hcare
  have hsup : B.env.supports = false := by obtain ⟨_, _, _, _, _, _, _, _, _, _, henv⟩ := build_some hV.built; rw [henv]
  exact sdp_bound (h := []) (h' := []) ⟨hV, ht, hok, ha, separated_of_noLpi hsup solver _ (careful_noLpi hcare) ha⟩ hherm (by simp) (by simp) hd hT hv

end

section
variable {cols : List (List Nat)} {ch : Choice} {name : Atom → String} {B : Built} {solver : SdpState.Args → SdpState.SolverOut} {d : List (Mon × Rat)} {maxi dual : Bool} {δ : ℝ} {v : Rat}

/-- **C65, semidefinite program, functionals of classically generated distributions.** Generate the relaxation with any generating set containing the unit, set a functional of the distribution as objective and
solve. If the solver is right up to `δ`, then for every distribution that some classical causal model of the graph generates the value of the functional is bounded by the reported optimum. -/
theorem C65_sdp_functional_classical (hI : I.Accepted) (hD : WellFormed I.D) (hs : HasSources I.D) (hV : Setup I cols ch name B) (hone : [] ∈ cols) (hf : SdpFunctional I B d)
    (hd : ∀ t ∈ d, isClose0 t.2 = true → t.2 = 0) (hT : TrustedSdp cols.length B dual δ solver)
    (hv : (SdpState.run B.env solver [.setObjective (some d) maxi, .solve]).result = .solved v) :
    ∀ (Λ : Type) [Fintype Λ] (M : CausalModel I.D I.outcomes I.priv Λ ℝ) (P : List Nat → Rat), (M.Generates fun t => ((P t : Rat) : ℝ)) →
      ∃ x, sdpFunctionalAt I P d = some x ∧ BoundedBy maxi δ ((x : Rat) : ℝ) ((v : Rat) : ℝ) := by
  intro Λ _ M P hP
  exact functional_bound (inflated hI hD hs M) hV hone (fun m _ => classical_nonneg hI _ _ m) hf hd hT hv (classical_realises hI _ _ (toClassical_realises hI hD M hP))

/-- **C65, semidefinite program, functionals of the distributions of quantum networks** of any dimension. What is missing: `BoundsSafe` (see C46). -/
theorem C65_sdp_functional_quantum_networks_partial (hI : I.Accepted) (hV : Setup I cols ch name B) (hone : [] ∈ cols) (hs : BoundsSafe I B) (hf : SdpFunctional I B d)
    (hd : ∀ t ∈ d, isClose0 t.2 = true → t.2 = 0) (hT : TrustedSdp cols.length B dual δ solver)
    (hv : (SdpState.run B.env solver [.setObjective (some d) maxi, .solve]).result = .solved v) :
    ∀ (A : Type) [Fintype A] [DecidableEq A] (N : QuantumNetwork I A) (P : List Nat → Rat), (N.Generates fun t => ((P t : Rat) : ℂ)) →
      ∃ x, sdpFunctionalAt I P d = some x ∧ BoundedBy maxi δ ((x : Rat) : ℝ) ((v : Rat) : ℝ) := by
  intro A _ _ N P hP
  exact functional_bound (inflate N hI) hV hone (C46_moments_nonneg _ hs) hf hd hT hv (realises_of_generates _ hI (generates_of_network N hI hP))

/-- **C65, functionals of quantum networks without inflation** (the NPA hierarchy for Bell expressions): no assumption on the bounds. -/
theorem C65_sdp_functional_quantum_uninflated (hI : I.Accepted) (hl : ∀ s < I.scenario.nSources, I.scenario.level s ≤ 1) (hV : Setup I cols ch name B) (hone : [] ∈ cols)
    (hf : SdpFunctional I B d) (hd : ∀ t ∈ d, isClose0 t.2 = true → t.2 = 0) (hT : TrustedSdp cols.length B dual δ solver)
    (hv : (SdpState.run B.env solver [.setObjective (some d) maxi, .solve]).result = .solved v) :
    ∀ (A : Type) [Fintype A] [DecidableEq A] (N : QuantumNetwork I A) (P : List Nat → Rat), (N.Generates fun t => ((P t : Rat) : ℂ)) →
      ∃ x, sdpFunctionalAt I P d = some x ∧ BoundedBy maxi δ ((x : Rat) : ℝ) ((v : Rat) : ℝ) :=
  C65_sdp_functional_quantum_networks_partial hI hV hone (safe_of_noSymmetry (symmetries_of_levels hl) hV) hf hd hT hv

end

end Verif.Optimum

import Verif.SdpEnd.Hermitian
import Verif.SdpEnd.CertProps
/-!
End-to-end statements on one distribution, for every model of the inflated network.
-/
namespace Verif.SdpEnd
open Verif.Common Verif.Canon Verif.Scenario Verif.Components Verif.Moment Verif.State Verif.Normalization
open Verif.EndToEnd (Input)

variable {I : Input} {R : Type} [Ring R] [StarRing R] [Algebra ℝ R]

/-- After one `set_distribution` the objective is zero. -/
theorem fresh_objective {E : SdpState.Env Mon} (hE : E.supports = false) {solver : SdpState.Args → SdpState.SolverOut} {vals : List (Mon × Option Rat)} {lpi o : Bool}
    (hok : SdpState.Ok E solver [.setValues vals lpi o]) :
    (SdpState.run E solver [.setValues vals lpi o]).objective = [(State.one, 0)] ∧ (SdpState.run E solver [.setValues vals lpi o]).processed = [(State.one, 0)] := by
  have hpk : ∀ k : Dict Mon Rat, SdpState.processKnown k [(State.one, 0)] = [(State.one, 0)] := by
    intro k
    rfl
  have hinit : (SdpState.init E).objective = [(State.one, 0)] := by
    have hg := SdpState.resetValues_good E _ (SdpState.setObjective_good E none true _ (SdpState.blank_good E))
    have hss : ∀ s, SdpState.supportsStep E s = s := by intro s; unfold SdpState.supportsStep; rw [hE]; simp
    obtain ⟨lo, up, pr, se, e, _⟩ := SdpState.cleanup_eq E _ (by rw [hss]; exact hg)
    show (SdpState.cleanup E _).1.objective = _
    rw [e, hss]
    unfold SdpState.setObjective
    rw [hE]
    rfl
  have hgi := SdpState.init_good E
  have hgr := SdpState.resetValues_good E _ hgi
  have key : ∀ s : SdpState.St, SdpState.Good s → s.objective = [(State.one, 0)] → (SdpState.cleanup E s).2 = none →
      (SdpState.cleanup E s).1.objective = [(State.one, 0)] ∧ (SdpState.cleanup E s).1.processed = [(State.one, 0)] := by
    intro s hg ho hn
    have hss : SdpState.supportsStep E s = s := by unfold SdpState.supportsStep; rw [hE]; simp
    obtain ⟨lo, up, pr, se, e, _, _, _, _, _, h⟩ := SdpState.cleanup_eq E s (by rw [hss]; exact hg)
    obtain ⟨_, _, _, _, hpr, _⟩ := h hn
    rw [e, hss]
    refine ⟨ho, ?_⟩
    show pr = _
    rw [hpr, ho, hpk]
  have hnone := hok [] _ [] rfl
  show (SdpState.setValues E vals lpi o (SdpState.init E)).1.objective = _ ∧ (SdpState.setValues E vals lpi o (SdpState.init E)).1.processed = _
  have hnone : (SdpState.setValues E vals lpi o (SdpState.init E)).2 = none := hnone
  unfold SdpState.setValues at hnone ⊢
  dsimp only at hnone ⊢
  split
  · rename_i hv
    rw [if_pos hv] at hnone
    exact key _ hgr hinit hnone
  · rename_i hv
    rw [if_neg hv] at hnone
    unfold SdpState.updateValues at hnone ⊢
    rw [if_neg hv] at hnone ⊢
    exact key _ (SdpState.pre_good E vals lpi o _ hgr) hinit hnone

/-- The distribution of a model in which the default lower bounds hold is not excluded. -/
theorem never_excluded [StarModule ℝ R] {cols : List (List Nat)} {ch : Choice} {name : Atom → String} {B : Built} (hV : Setup I cols ch name B) (hone : [] ∈ cols) (M : InflatedModel I R)
    {P : List Nat → Rat} (hR : M.Realises P) (hherm : ∀ m ∈ B.env.hermitian, 0 ≤ M.value m) (solver : SdpState.Args → SdpState.SolverOut) :
    ∃ c, setDistribution I B P false false = some c ∧ SdpState.Ok B.env solver [c] ∧
      ∃ a, SdpState.solverArgs B.env (SdpState.run B.env solver [c]) = some a ∧
        ∀ fl : SdpSolver.Flags (Option Mon), fl.nonneg = false → (fl.feas = true → fl.Fresh (solverInput cols.length B a)) →
          ∃ Q : SdpSolver.Prep (Option Mon) ℝ cols.length, SdpSolver.prep fl (solverInput cols.length B a) = some Q ∧
            (∃ x G, Q.Primal false x G ∧ Q.primalValue x = 0) ∧ ∀ (Z : SdpSolver.Mat cols.length ℝ) (mi me : Nat → ℝ), Q.Dual false Z mi me → 0 ≤ Q.dualValue fl.feas Z mi me := by
  obtain ⟨vals, hc, _⟩ := C56_distribution_accepted hV M hR false false
  have ht : ∀ c ∈ [SdpState.Call.setValues vals false false], Truthful I B M c := by
    intro c hm
    rw [List.mem_singleton] at hm
    subst hm
    exact .distribution hR (by simp) hc
  have hcare : ∀ c ∈ [SdpState.Call.setValues vals false false], Careful B.env.moments c := by
    intro c hm
    rw [List.mem_singleton] at hm
    subst hm
    exact ⟨rfl, rfl⟩
  obtain ⟨hok, a, ha⟩ := C56_no_exception_partial hV hone M hherm solver _ ht hcare
  have hsup : B.env.supports = false := by obtain ⟨_, _, _, _, _, _, _, _, _, _, henv⟩ := build_some hV.built; rw [henv]
  have hsep := separated_of_noLpi hsup solver _ (careful_noLpi hcare) ha
  have U : Used I cols ch name B M solver _ a := ⟨hV, ht, hok, ha, hsep⟩
  have hsemi : a.semi = [] := by
    have hn := semi_nil B.env hsup solver _ (careful_noLpi hcare)
    have ha' := ha
    unfold SdpState.solverArgs at ha'
    split at ha'
    swap
    · simp at ha'
    have ha' := Option.some.inj ha'
    subst ha'
    apply List.eq_nil_iff_forall_not_mem.2
    intro t ht
    have hg := (State.get_of_mem _ (SdpState.run_good B.env solver _).semi t.1 t.2).1 ht
    rw [hn] at hg
    simp at hg
  refine ⟨_, hc, hok, a, ha, fun fl hn hfr => ?_⟩
  obtain ⟨Q, hQ⟩ := SdpSolver.C32_accepted U.input_ok hfr (by
    intro s hs
    have : (solverInput cols.length B a).semiknown = [] := by
      show List.map _ a.semi = []
      rw [hsemi]; rfl
    rw [this] at hs
    simp at hs)
  refine ⟨Q, hQ, ?_⟩
  have h0 : dictR (SdpState.run B.env solver [.setValues vals false false]).objective M.value = 0 := by
    rw [(fresh_objective hsup hok).1]
    simp [dictR]
  have hr : ∀ c ∈ [SdpState.Call.setValues vals false false], c ≠ .reset .values := by simp
  rcases hfe : fl.feas with _ | _
  · refine ⟨?_, fun Z mi me hd => ?_⟩
    · obtain ⟨x, G, h1, h2⟩ := C56_primal_is_feasible_partial U hherm hr hfe hn hQ
      exact ⟨x, G, h1, by rw [h2, h0]⟩
    · have := C56_dual_is_bounded_partial U hherm hr hfe hn hQ hd
      rwa [h0] at this
  · exact C56_feasibility_not_negative_partial U hherm hfe hn (hfr hfe) hQ

/-- Preprocessing keeps the known values. -/
theorem prep_known {n : Nat} {fl : SdpSolver.Flags (Option Mon)} {inp : SdpSolver.Input (Option Mon) ℝ n} (hok : inp.Ok) (hfr : fl.feas = true → fl.Fresh inp) (hm : inp.masks ≠ [])
    {Q : SdpSolver.Prep (Option Mon) ℝ n} (h : SdpSolver.prep fl inp = some Q) : Q.known = inp.known :=
  (SdpSolver.final_of (SdpSolver.clean_start hok hfr (fun _ => hm)) (by rw [← SdpSolver.prep_eq]; exact h)).known_eq

/-- The values which `set_distribution(P)` records are those of the model. -/
theorem known_of_model (M : InflatedModel I R) {P : List Nat → Rat} (hR : M.Realises P) {cols : List (List Nat)} {ch : Choice} {name : Atom → String} {B : Built}
    (hV : Setup I cols ch name B) (hherm : ∀ m ∈ B.env.hermitian, 0 ≤ M.value m) {solver' : SdpState.Args → SdpState.SolverOut} {c' : SdpState.Call Mon} {shared' : Bool} {a' : SdpState.Args}
    (hc' : setDistribution I B P false shared' = some c') (ha' : SdpState.solverArgs B.env (SdpState.run B.env solver' [c']) = some a') :
    ∀ y ∈ a'.known.keys, (((Dict.get a'.known y).getD 0 : Rat) : ℝ) = values M y := by
  obtain ⟨v', hv', rfl⟩ := Option.map_eq_some_iff.1 (show Option.map _ _ = _ from hc')
  intro y hk
  have hH := history_holds M hV hherm solver' [.setValues v' false shared'] (by
    intro d hd
    rw [List.mem_singleton] at hd
    subst hd
    exact truthful_callTrue hV _ (.distribution hR (by simp) hc'))
  have hg := SdpState.run_good B.env solver' [.setValues v' false shared']
  have ha2 := ha'
  unfold SdpState.solverArgs at ha2
  split at ha2
  swap
  · simp at ha2
  have ha2 := Option.some.inj ha2
  subst ha2
  obtain ⟨w, hw⟩ := (State.mem_keys _ _).1 hk
  rw [hw]
  have hnd : (Dict.keys (((SdpState.run B.env solver' [.setValues v' false shared']).known.map fun t => ((some t.1 : Option Mon), t.2)) ++ [(none, 1)])).Nodup := by
    unfold State.Dict.keys
    rw [List.map_append, List.map_map]
    have : ((Prod.fst ∘ fun t : Mon × Rat => ((some t.1 : Option Mon), t.2))) = some ∘ Prod.fst := rfl
    rw [this, ← List.map_map]
    exact nodup_some_none hg.known
  have hmem := (State.get_of_mem _ hnd _ _).2 hw
  rcases List.mem_append.1 hmem with hm | hm
  · obtain ⟨z, hz, e⟩ := List.mem_map.1 hm
    simp only [Prod.mk.injEq] at e
    rw [← e.1, ← e.2]
    exact ((hH.values.known z.1 z.2 ((State.get_of_mem _ hg.known z.1 z.2).1 hz)).1).symm
  · simp only [List.mem_cons, List.not_mem_nil, or_false, Prod.mk.injEq] at hm
    rw [hm.1, hm.2]
    simp [values]

/-- The certificate found for any distribution is valid on the distribution of a model in which the default lower bounds hold. -/
theorem certificate_on_distribution [StarModule ℝ R] (M : InflatedModel I R) {P : List Nat → Rat} (hR : M.Realises P) {cols : List (List Nat)} {ch : Choice} {name : Atom → String} {B : Built}
    (hV : Setup I cols ch name B) (hherm : ∀ m ∈ B.env.hermitian, 0 ≤ M.value m)
    {solver solver' : SdpState.Args → SdpState.SolverOut} {Q : List Nat → Rat} {c c' : SdpState.Call Mon} {shared shared' : Bool} {a a' : SdpState.Args}
    (hc : setDistribution I B Q false shared = some c) (hok : SdpState.Ok B.env solver [c]) (ha : SdpState.solverArgs B.env (SdpState.run B.env solver [c]) = some a)
    (hc' : setDistribution I B P false shared' = some c') (ha' : SdpState.solverArgs B.env (SdpState.run B.env solver' [c']) = some a')
    (hkeys : ∀ t ∈ a.known, t.1 ∈ a'.known.keys)
    {fl : SdpSolver.Flags (Option Mon)} (hn : fl.nonneg = false) (hfr : fl.feas = true → fl.Fresh (solverInput cols.length B a))
    {T : SdpSolver.Prep (Option Mon) ℝ cols.length} (hT : SdpSolver.prep fl (solverInput cols.length B a) = some T)
    {Z : SdpSolver.Mat cols.length ℝ} {mi me : Nat → ℝ} (hd : T.Dual false Z mi me) {tol : ℝ} (htol : 0 ≤ tol) :
    -(tol * (a.known.map fun t => |(((Dict.get a'.known t.1).getD 0 : Rat) : ℝ)|).sum) ≤
      SdpSolver.certValue (T.certificate fl.feas (fun c => decide (|c| ≤ tol)) Z mi me) (fun y => (((Dict.get a'.known y).getD 0 : Rat) : ℝ)) := by
  obtain ⟨v, hv, rfl⟩ := Option.map_eq_some_iff.1 (show Option.map _ _ = _ from hc)
  have hsup : B.env.supports = false := by obtain ⟨_, _, _, _, _, _, _, _, _, _, henv⟩ := build_some hV.built; rw [henv]
  have U : Asked I cols ch name B M solver [.setValues v false shared] a :=
    ⟨hV, by intro c hm; rw [List.mem_singleton.1 hm]; trivial, by intro c hm; rw [List.mem_singleton.1 hm], hok, ha⟩
  have hobj : ∀ t ∈ a.objective, t.2 = 0 := by
    have : a.objective = (SdpState.run B.env solver [.setValues v false shared]).processed := by
      have ha2 := ha
      unfold SdpState.solverArgs at ha2
      split at ha2
      swap
      · simp at ha2
      rw [← Option.some.inj ha2]
    rw [this, (fresh_objective hsup hok).2]
    simp
  have hpos : 0 ≤ T.certAt fl.feas Z mi me (values M) := by
    rcases hfe : fl.feas with _ | _
    · exact C57_certificate_is_valid_partial U hherm hobj hfe hn hT hd
    · exact C57_feasibility_certificate_is_valid_partial U hherm hfe (hfr hfe) hT hd
  have hknown := prep_known U.input_ok hfr (masks_ne_nil _ _ _) hT
  have hklen : T.known.length = a.known.length := by
    rw [hknown]
    show (realRow a.known).length = _
    simp [realRow]
  have hv2 := known_of_model M hR hV hherm hc' ha'
  have hagree : ∀ t ∈ T.known, (((Dict.get a'.known t.1).getD 0 : Rat) : ℝ) = values M t.1 := by
    intro t ht
    rw [hknown] at ht
    obtain ⟨u, hu, rfl⟩ := List.mem_map.1 (show t ∈ realRow a.known from ht)
    exact hv2 _ (hkeys u hu)
  have hcong : SdpSolver.certValue (T.certificate fl.feas (fun c => decide (|c| ≤ tol)) Z mi me) (fun y => (((Dict.get a'.known y).getD 0 : Rat) : ℝ)) =
      SdpSolver.certValue (T.certificate fl.feas (fun c => decide (|c| ≤ tol)) Z mi me) (values M) := by
    unfold SdpSolver.certValue SdpSolver.Prep.certificate SdpSolver.lin
    congr 1
    apply List.map_congr_left
    intro t ht
    obtain ⟨u, hu, rfl⟩ := List.mem_map.1 (List.mem_of_mem_filter ht)
    dsimp only
    rw [hagree u hu]
  rw [hcong]
  have hclose := SdpSolver.C31_sdp_dictionary_close T fl.feas tol htol Z mi me (values M)
  have hsum : (T.known.map fun t => |values M t.1|).sum = (a.known.map fun t => |(((Dict.get a'.known t.1).getD 0 : Rat) : ℝ)|).sum := by
    have e1 : (T.known.map fun t => |values M t.1|) = T.known.map fun t => |(((Dict.get a'.known t.1).getD 0 : Rat) : ℝ)| := by
      apply List.map_congr_left
      intro t ht
      rw [hagree t ht]
    rw [e1, hknown]
    show ((realRow a.known).map _).sum = _
    unfold realRow
    rw [List.map_map]
    rfl
  rw [hsum] at hclose
  have h3 := (abs_le.1 hclose).1
  linarith

/-! ## Quantum models -/

theorem symmetries_of_levels (hI : ∀ s < I.scenario.nSources, I.scenario.level s ≤ 1) : symmetries I = [List.range (nOps I)] := by
  unfold symmetries Symmetry.sdpSymmetries Symmetry.lexorderSymmetries
  have : ((List.range I.scenario.nSources).filter fun s => decide (1 < I.scenario.level s)) = [] := by
    rw [List.filter_eq_nil_iff]
    intro s hs
    have := hI s (List.mem_range.1 hs)
    simp
    omega
  rw [this]
  simp only [List.map_singleton, Symmetry.padRow, nOps, List.range_succ_eq_map]

section
variable [StarModule ℝ R] {cols : List (List Nat)} {ch : Choice} {name : Atom → String} {B : Built}

/-- **C56 for one distribution.** If a model of the inflated network realises the distribution `P`, then for every generating set that contains the unit `set_distribution(P)` raises no
exception, the arguments of the solver can be prepared and preprocessed, and the program then solved is feasible: the primal problem has a feasible point of value 0, and the value of the
dual problem is never negative. What is missing: it is assumed that the moments with a default lower bound equal their adjoint by commutations, and not only up to an inflation symmetry
(see C46). -/
theorem C56_distribution_never_excluded_partial (hV : Setup I cols ch name B) (hone : [] ∈ cols) (M : InflatedModel I R) {P : List Nat → Rat} (hR : M.Realises P) (hs : BoundsSafe I B)
    (solver : SdpState.Args → SdpState.SolverOut) :
    ∃ c, setDistribution I B P false false = some c ∧ SdpState.Ok B.env solver [c] ∧
      ∃ a, SdpState.solverArgs B.env (SdpState.run B.env solver [c]) = some a ∧
        ∀ fl : SdpSolver.Flags (Option Mon), fl.nonneg = false → (fl.feas = true → fl.Fresh (solverInput cols.length B a)) →
          ∃ Q : SdpSolver.Prep (Option Mon) ℝ cols.length, SdpSolver.prep fl (solverInput cols.length B a) = some Q ∧
            (∃ x G, Q.Primal false x G ∧ Q.primalValue x = 0) ∧ ∀ (Z : SdpSolver.Mat cols.length ℝ) (mi me : Nat → ℝ), Q.Dual false Z mi me → 0 ≤ Q.dualValue fl.feas Z mi me :=
  never_excluded hV hone M hR (C46_moments_nonneg M hs) solver

/-- **C56 without inflation**: the assumption on the bounds holds, whatever has been computed before, when no source is copied. -/
theorem C56_uninflated_never_excluded_partial (hI : ∀ s < I.scenario.nSources, I.scenario.level s ≤ 1) (hV : Setup I cols ch name B) (hone : [] ∈ cols) (M : InflatedModel I R)
    {P : List Nat → Rat} (hR : M.Realises P) (solver : SdpState.Args → SdpState.SolverOut) :
    ∃ c, setDistribution I B P false false = some c ∧ SdpState.Ok B.env solver [c] ∧
      ∃ a, SdpState.solverArgs B.env (SdpState.run B.env solver [c]) = some a ∧
        ∀ fl : SdpSolver.Flags (Option Mon), fl.nonneg = false → (fl.feas = true → fl.Fresh (solverInput cols.length B a)) →
          ∃ Q : SdpSolver.Prep (Option Mon) ℝ cols.length, SdpSolver.prep fl (solverInput cols.length B a) = some Q ∧
            (∃ x G, Q.Primal false x G ∧ Q.primalValue x = 0) ∧ ∀ (Z : SdpSolver.Mat cols.length ℝ) (mi me : Nat → ℝ), Q.Dual false Z mi me → 0 ≤ Q.dualValue fl.feas Z mi me :=
  never_excluded hV hone M hR (C46_moments_nonneg M (safe_of_noSymmetry (symmetries_of_levels hI) hV)) solver

/-- **C57, certificates on distributions.** Solve the problem for any distribution `Q`. The reported certificate (entries of absolute value at most `tol` deleted), evaluated on the
values that `set_distribution(P)` records for any distribution `P` realised by a model of the inflated network, is not below `-tol` times the sum of these values. The same assumption on the
bounds as in C56. -/
theorem C57_certificate_on_distribution_partial (M : InflatedModel I R) {P : List Nat → Rat} (hR : M.Realises P) (hV : Setup I cols ch name B) (hs : BoundsSafe I B)
    {solver solver' : SdpState.Args → SdpState.SolverOut} {Q : List Nat → Rat} {c c' : SdpState.Call Mon} {shared shared' : Bool} {a a' : SdpState.Args}
    (hc : setDistribution I B Q false shared = some c) (hok : SdpState.Ok B.env solver [c]) (ha : SdpState.solverArgs B.env (SdpState.run B.env solver [c]) = some a)
    (hc' : setDistribution I B P false shared' = some c') (ha' : SdpState.solverArgs B.env (SdpState.run B.env solver' [c']) = some a')
    (hkeys : ∀ t ∈ a.known, t.1 ∈ a'.known.keys)
    {fl : SdpSolver.Flags (Option Mon)} (hn : fl.nonneg = false) (hfr : fl.feas = true → fl.Fresh (solverInput cols.length B a))
    {T : SdpSolver.Prep (Option Mon) ℝ cols.length} (hT : SdpSolver.prep fl (solverInput cols.length B a) = some T)
    {Z : SdpSolver.Mat cols.length ℝ} {mi me : Nat → ℝ} (hd : T.Dual false Z mi me) {tol : ℝ} (htol : 0 ≤ tol) :
    -(tol * (a.known.map fun t => |(((Dict.get a'.known t.1).getD 0 : Rat) : ℝ)|).sum) ≤
      SdpSolver.certValue (T.certificate fl.feas (fun c => decide (|c| ≤ tol)) Z mi me) (fun y => (((Dict.get a'.known y).getD 0 : Rat) : ℝ)) :=
  certificate_on_distribution M hR hV (C46_moments_nonneg M hs) hc hok ha hc' ha' hkeys hn hfr hT hd htol

end

/-- **C57, certificates exclude.** If the certificate reported for the distribution `P`, evaluated on the values of `P`, is below `-tol` times the sum of their absolute values, then no model
of the inflated network realises `P`. The same assumption on the bounds as in C56. -/
theorem C57_negative_certificate_excludes_partial {cols : List (List Nat)} {ch : Choice} {name : Atom → String} {B : Built} (hV : Setup I cols ch name B) (hs : BoundsSafe I B)
    {solver : SdpState.Args → SdpState.SolverOut} {P : List Nat → Rat} {c : SdpState.Call Mon} {shared : Bool} {a : SdpState.Args}
    (hc : setDistribution I B P false shared = some c) (hok : SdpState.Ok B.env solver [c]) (ha : SdpState.solverArgs B.env (SdpState.run B.env solver [c]) = some a)
    {fl : SdpSolver.Flags (Option Mon)} (hn : fl.nonneg = false) (hfr : fl.feas = true → fl.Fresh (solverInput cols.length B a))
    {T : SdpSolver.Prep (Option Mon) ℝ cols.length} (hT : SdpSolver.prep fl (solverInput cols.length B a) = some T)
    {Z : SdpSolver.Mat cols.length ℝ} {mi me : Nat → ℝ} (hd : T.Dual false Z mi me) {tol : ℝ} (htol : 0 ≤ tol)
    (hneg : SdpSolver.certValue (T.certificate fl.feas (fun c => decide (|c| ≤ tol)) Z mi me) (fun y => (((Dict.get a.known y).getD 0 : Rat) : ℝ)) <
      -(tol * (a.known.map fun t => |(((Dict.get a.known t.1).getD 0 : Rat) : ℝ)|).sum)) :
    ∀ (R : Type) [Ring R] [StarRing R] [Algebra ℝ R] [StarModule ℝ R] (M : InflatedModel I R), ¬ M.Realises P := by
  intro R _ _ _ _ M hR
  exact absurd hneg (not_lt.2 (C57_certificate_on_distribution_partial M hR hV hs hc hok ha hc ha (fun t ht => List.mem_map.2 ⟨t, ht, rfl⟩) hn hfr hT hd htol))

end Verif.SdpEnd

import Verif.Linear.Separate
import Verif.Linear.Involution
import Verif.Physical.Props
/-!
C70: linearised polynomial constraints in the semidefinite program.
-/
namespace Verif.Linear
open Verif.Common Verif.Canon Verif.Scenario Verif.Moment Verif.MomentMatrix Verif.SymMM Verif.SdpRepr Verif.SdpEnd Verif.SdpNames Verif.Generate Verif.Physical
open Verif.SdpState (Call Args SolverOut Env St one)
open Verif.State (Dict Mon)
open Verif.Columns (npaSpecs)
open Verif.EndToEnd (Input CausalModel WellFormed toClassical_realises)

variable {I : Input} {cols : List (List Nat)} {ch : Choice} {name : Atom → String} {B : Built}

/-- The atoms of the program and the adjoint. -/
theorem adjoint (hV : Setup I cols ch name B) (hch : UsualChoice ch I) : Adjoint B.env (Plain I) := by
  have hp := moments_proper hV hch
  obtain ⟨_, _, _, _, _, _, _, _, _, _, henv⟩ := build_some hV.built
  have hd : B.env.dagger = ch.dagger := by rw [henv]
  have hz : B.env.info.zero = isZero := by rw [henv]; rfl
  refine ⟨fun a ha => by rw [hd]; exact dagger_plain hch ha, fun a ha => by rw [hd]; exact dagger_dagger hch ha.repr, ?_, ?_, ?_⟩
  · intro m hm h2 a ha
    rcases (hp m hm).atoms with h | h
    · rw [h] at h2; simp at h2
    · exact h a ha
  · intro a ha
    refine ⟨ha.ne, ?_⟩
    rw [hz]
    simpa [isZero] using ha.nonzero
  · intro z e
    have : z = [[0]] := by
      rw [henv] at e
      dsimp only at e
      split at e
      · exact (Option.some.inj e).symm
      · simp at e
    exact ⟨[0], this, by rw [hd]; exact dagger_zero hch⟩

/-- The keys which `set_distribution` gives to `set_values` are atoms. -/
theorem atomKey_distribution (hV : Setup I cols ch name B) (hch : UsualChoice ch I) {m : Mon} (hm : m ∈ atomicMonomials B) : AtomKey B.env (Plain I) m := by
  have hp := moments_proper hV hch
  obtain ⟨_, _, _, _, _, _, _, _, _, _, henv⟩ := build_some hV.built
  obtain ⟨b, hb, rfl⟩ := List.mem_map.1 hm
  have hb := mem_sortBy.1 hb
  rw [mem_dedupB] at hb
  obtain ⟨n, hn, hbn⟩ := List.mem_flatten.1 hb
  have hr : Representative I b := by
    rcases (hp n hn).atoms with h | h
    · rw [h] at hbn
      rw [List.mem_singleton.1 hbn]
      exact zero_representative
    · exact (h b hbn).repr
  have hpm := monFromAtoms_proper hch B.env (by rw [henv]) (l := [b]) (by simpa using hr) (by rw [henv]; rfl)
  have hlen : (SdpState.monFromAtoms B.env [b]).length ≤ 1 := by
    unfold SdpState.monFromAtoms
    dsimp only
    split
    · split <;> simp [(sortBy_perm atomLe _).length_eq]
    · have h1 : ([b].filter fun a => !a.isEmpty).length ≤ 1 := List.length_filter_le _ _
      split
      · rw [(sortBy_perm atomLe _).length_eq]; exact h1
      · rw [(sortBy_perm atomLe _).length_eq, List.length_map, (sortBy_perm atomLe _).length_eq]; exact h1
  generalize SdpState.monFromAtoms B.env [b] = m at *
  match m with
  | [] => exact .inl rfl
  | [a] =>
    refine .inr ⟨a, rfl, ?_⟩
    rcases hpm.atoms with h | h
    · right
      have : a = [0] := by simpa using h
      rw [this, henv]
      exact dagger_zero hch
    · exact .inl (h a (by simp))
  | a :: b :: t => simp at hlen

/-- What is asked of a history: every call of `set_values` with linearised constraints gives values to atoms of the program only (as `set_distribution` does), and `update_values` is not
used. -/
def Linearised (I : Input) : Call Mon → Prop
  | .setValues v lpi o => lpi = true → o = false → ∀ t ∈ v, t.1 = [] ∨ ∃ a, t.1 = [a] ∧ (Plain I a ∨ a = [0])
  | .updateValues _ _ _ => False
  | _ => True

theorem fresh_of (hV : Setup I cols ch name B) (hch : UsualChoice ch I) {c : Call Mon} (h : Linearised I c) : Fresh B.env (Plain I) c := by
  obtain ⟨_, _, _, _, _, _, _, _, _, _, henv⟩ := build_some hV.built
  cases c with
  | setValues v lpi o =>
    intro h1 h2 t ht
    have hs : B.env.san t.1 = t.1 := by rw [henv]; rfl
    rw [hs]
    rcases h h1 h2 t ht with h | ⟨a, ha, hp | rfl⟩
    · exact .inl h
    · exact .inr ⟨a, ha, .inl hp⟩
    · exact .inr ⟨_, ha, .inr (by rw [henv]; exact dagger_zero hch)⟩
  | updateValues => exact h
  | _ => trivial

/-- `set_distribution` is such a call. -/
theorem linearised_distribution (hV : Setup I cols ch name B) (hch : UsualChoice ch I) {P : List Nat → Rat} {lpi shared : Bool} {c : Call Mon}
    (hc : setDistribution I B P lpi shared = some c) : Linearised I c := by
  obtain ⟨_, _, _, _, _, _, _, _, _, _, henv⟩ := build_some hV.built
  obtain ⟨v, hv, rfl⟩ := Option.map_eq_some_iff.1 (show Option.map _ _ = _ from hc)
  intro _ _ t ht
  unfold distributionValues at hv
  have hf := List.forall₂_iff_get.1 (Verif.LpSolver.mapM_forall₂ hv)
  obtain ⟨i, hi, rfl⟩ := List.getElem_of_mem ht
  obtain ⟨w, _, e⟩ := Option.map_eq_some_iff.1 (hf.2 i (by rw [hf.1]; exact hi) hi)
  have e' : _ = v[i] := e
  rw [← e']
  have hm := List.get_mem ((atomicMonomials B).filter fun m => m.all (knowable I)) ⟨i, by rw [hf.1]; exact hi⟩
  have hp := moments_proper hV hch
  rcases atomKey_distribution hV hch (List.mem_filter.1 hm).1 with h | ⟨a, ha, h⟩
  · exact .inl h
  · refine .inr ⟨a, ha, ?_⟩
    obtain ⟨b, hb, e⟩ := List.mem_map.1 (List.mem_filter.1 hm).1
    have hb := mem_sortBy.1 hb
    rw [mem_dedupB] at hb
    obtain ⟨n, hn, hbn⟩ := List.mem_flatten.1 hb
    have hr : Representative I b := by
      rcases (hp n hn).atoms with h | h
      · rw [h] at hbn
        rw [List.mem_singleton.1 hbn]
        exact zero_representative
      · exact (h b hbn).repr
    have hpm := monFromAtoms_proper hch B.env (by rw [henv]) (l := [b]) (by simpa using hr) (by rw [henv]; rfl)
    rw [e] at hpm
    rcases hpm.atoms with h | h
    · right
      have h2 := ha.symm.trans h
      simpa using h2
    · exact .inl (h a (by show a ∈ List.get _ _; rw [ha]; simp))

/-- **C70, separation.** However the program was used before, after `set_distribution(P, use_lpi_constraints=True)` (or `set_values` with values for atoms) every linearised constraint says
that a moment is a number times a moment which is itself left free. -/
theorem C70_separated (hV : Setup I cols ch name B) (hch : UsualChoice ch I) (solver : Args → SolverOut) (h : List (Call Mon)) (hl : ∀ c ∈ h, Linearised I c) {a : Args}
    (ha : SdpState.solverArgs B.env (SdpState.run B.env solver h) = some a) : Separated a := by
  have hsup : B.env.supports = false := by obtain ⟨_, _, _, _, _, _, _, _, _, _, henv⟩ := build_some hV.built; rw [henv]
  have hg := SdpState.run_good B.env solver h
  unfold SdpState.solverArgs at ha
  split at ha
  swap
  · simp at ha
  have ha := Option.some.inj ha
  subst ha
  intro t ht
  have ht' := (State.get_of_mem _ hg.semi t.1 t.2).1 ht
  obtain ⟨h1, h2⟩ := separated_run (adjoint hV hch) hsup solver h (fun c hc => fresh_of hV hch (hl c hc)) ht'
  refine ⟨?_, (State.get_none _ _).1 h2⟩
  have := (State.get_none _ _).1 h1
  intro hm
  apply this
  have e : Dict.keys (((SdpState.run B.env solver h).known.map fun t => ((some t.1 : Option Mon), t.2)) ++ [(none, 1)]) = (SdpState.run B.env solver h).known.keys.map some ++ [none] := by
    unfold State.Dict.keys
    rw [List.map_append, List.map_map, List.map_map]
    rfl
  rw [e] at hm
  simpa using hm

/-- Bringing the state in order raises no exception if the known values satisfy the bounds and no semi-known moment is in the objective. -/
theorem cleanup_none' (E : Env Mon) (hE : E.supports = false) {y : Mon → ℝ} {s : SdpState.St} (hg : s.known.keys.Nodup) (h : Fits y s)
    (hs : ∀ t ∈ SdpState.processKnown s.known s.objective, s.semi.get t.1 = none) : (SdpState.cleanup E s).2 = none := by
  have hss : SdpState.supportsStep E s = s := by unfold SdpState.supportsStep; rw [hE]; simp
  unfold SdpState.cleanup
  rw [hss]
  have h1 := updateLower_none hg h.known h.lower
  obtain ⟨b, e1⟩ := updateLower_st s
  have h2 : (SdpState.andThen (SdpState.updateLower s) SdpState.updateUpper).2 = none := by
    refine andThen_none h1 ?_
    rw [e1]
    exact updateUpper_none (s := { s with lower := b }) hg h.known h.upper
  have e2 : ∃ b', (SdpState.andThen (SdpState.updateLower s) SdpState.updateUpper).1 = { s with lower := b, upper := b' } := by
    unfold SdpState.andThen
    rw [h1]
    dsimp only
    rw [e1]
    obtain ⟨b', e⟩ := updateUpper_st { s with lower := b }
    exact ⟨b', e⟩
  obtain ⟨b', e2⟩ := e2
  refine andThen_none (andThen_none h2 ?_) rfl
  rw [e2]
  unfold SdpState.updateObjective
  dsimp only
  rw [if_neg]
  simp only [List.any_eq_true, not_exists, not_and]
  intro t ht
  rw [hs t ht]
  simp

/-- The known moments are moments of the program. -/
theorem known_mem' (E : Env Mon) (hE : E.supports = false) (hone : one ∈ E.moments) (hzero : ∀ z, E.zero = some z → z ∈ E.moments) (solver : Args → SolverOut)
    (h : List (Call Mon)) (hc : ∀ c ∈ h, match c with | .setValues _ _ o => o = false | .updateValues _ _ o => o = false | _ => True) :
    ∀ m v, (SdpState.run E solver h).known.get m = some v → m ∈ E.moments := by
  refine SdpState.values_induction E hE solver (fun k _ => ∀ (m : Mon) (v : Rat), Dict.get k m = some v → m ∈ E.moments)
    (fun c => match c with | .setValues _ _ o => o = false | .updateValues _ _ o => o = false | _ => True) (fun _ _ _ _ h => h) ?_ ?_ h hc
  · intro m v hm
    rw [State.get_set] at hm
    split at hm
    · rename_i e; rw [← e]; exact hone
    · rcases hz : E.zero with _ | z
      · rw [hz] at hm; simp at hm
      · rw [hz] at hm
        dsimp only at hm
        rw [State.get_set] at hm
        split at hm
        · rename_i e; rw [← e]; exact hzero z hz
        · simp at hm
  · intro s v lpi o hg _ hq hs m x hm
    have hq' : o = false := by rcases hq with ⟨h, -⟩ | h <;> exact h
    subst hq'
    unfold SdpState.preUpdate at hm
    simp only [Bool.false_eq_true, if_false] at hm
    rcases (SdpState.evalLoop_of E _ lpi _ _).1 m x hm with h1 | ⟨h1, _⟩
    · rw [State.get_filter _ _ (SdpState.assign_nodup E v _ hg.known)] at h1
      simpa using h1.2
    · exact (SdpState.remaining_of E _ lpi m h1).1

section
variable {R : Type} [Ring R] [StarRing R] [Algebra ℝ R]

theorem init_objective {E : Env Mon} (hE : E.supports = false) : (SdpState.init E).objective = [(one, 0)] := by
  show (SdpState.setValues E [] false false _).1.objective = _
  unfold SdpState.setValues
  simp only [List.isEmpty_nil, if_true]
  have hg := SdpState.resetValues_good E _ (SdpState.setObjective_good E none true _ (SdpState.blank_good E))
  have hss : ∀ s, SdpState.supportsStep E s = s := by intro s; unfold SdpState.supportsStep; rw [hE]; simp
  obtain ⟨lo, up, pr, se, e, _⟩ := SdpState.cleanup_eq E _ (by rw [hss]; exact hg)
  rw [e, hss]
  unfold SdpState.setObjective
  rw [hE]
  rfl

/-- **C70, no exceptions.** `set_distribution(P, use_lpi_constraints=True)` with the distribution of a model on a program for which no objective was set raises no exception, and the
arguments for the solver can be prepared. -/
theorem C70_no_exception (hV : Setup I cols ch name B) (hch : UsualChoice ch I) (hone : [] ∈ cols) (M : InflatedModel I R) (hherm : ∀ m ∈ B.env.hermitian, 0 ≤ M.value m)
    {P : List Nat → Rat} (hR : M.Realises P) (hT : NotTiny I B P) (solver : Args → SolverOut) :
    ∃ c, setDistribution I B P true false = some c ∧ SdpState.Ok B.env solver [c] ∧ ∃ a, SdpState.solverArgs B.env (SdpState.run B.env solver [c]) = some a := by
  obtain ⟨vals, hc, _⟩ := C56_distribution_accepted hV M hR true false
  have hsup : B.env.supports = false := by obtain ⟨_, _, _, _, _, _, _, _, _, _, henv⟩ := build_some hV.built; rw [henv]
  have hone' := one_mem hV.columns hV.built hone
  have hzero := zero_mem hV.columns hV.built
  refine ⟨_, hc, ?_, solverArgs_total _ _ (known_mem' B.env hsup hone' hzero solver _ (by intro c hm; rw [List.mem_singleton.1 hm]))⟩
  have hholds : Holds M.val (SdpState.run B.env solver [.setValues vals true false]) := history_holds M hV hherm solver _ fun d hd => by
    rw [List.mem_singleton.1 hd]
    exact truthful_callTrue hV M (.distribution hR (fun _ => hT) hc)
  have hinit : Holds M.val (SdpState.run B.env solver []) := history_holds M hV hherm solver _ fun d hd => by simp at hd
  have hF := fits_of_holds hinit
  have hF' : Fits M.value (SdpState.setValues B.env vals true false (SdpState.init B.env)).1 := fits_of_holds hholds
  have hsplit := split_setValues (adjoint hV hch) hsup (SdpState.init B.env) (SdpState.init_good _) (fresh_of hV hch (linearised_distribution hV hch hc))
  intro h1 c h2 e
  have : h1 = [] ∧ c = .setValues vals true false := by
    cases h1 with
    | nil => exact ⟨rfl, by simpa using (List.cons.inj e).1.symm⟩
    | cons d t => simp at e
  obtain ⟨rfl, rfl⟩ := this
  show (SdpState.setValues B.env vals true false (SdpState.init B.env)).2 = none
  have hgr := SdpState.resetValues_good B.env _ (SdpState.init_good B.env)
  have hproc : ∀ known : Dict Mon Rat, SdpState.processKnown known [(one, 0)] = [(one, 0)] := by
    intro known
    unfold SdpState.processKnown
    simp
  unfold SdpState.setValues at hF' ⊢
  dsimp only at hF' ⊢
  split
  · rename_i hv
    rw [if_pos hv] at hF'
    have hk := (SdpState.cleanup_values B.env hsup _ hgr).1
    refine cleanup_none B.env hsup hgr.known (y := M.value) ⟨?_, hF.lower, hF.upper⟩ (fun m => rfl)
    intro m x hm
    rw [← hk] at hm
    exact hF'.known m x hm
  · rename_i hv
    rw [if_neg hv] at hF'
    unfold SdpState.updateValues at hF' ⊢
    rw [if_neg hv] at hF' ⊢
    have hgp := SdpState.pre_good B.env vals true false _ hgr
    have hk := (SdpState.cleanup_values B.env hsup _ hgp).1
    refine cleanup_none' B.env hsup hgp.known (y := M.value) ⟨?_, hF.lower, hF.upper⟩ ?_
    · intro m x hm
      rw [← hk] at hm
      exact hF'.known m x hm
    · have ho : (SdpState.preUpdate B.env vals true false (SdpState.resetValues B.env (SdpState.init B.env))).objective = [(one, 0)] := init_objective hsup
      rw [ho, hproc]
      intro t ht
      rw [List.mem_singleton.1 ht]
      rcases hget : Dict.get (SdpState.preUpdate B.env vals true false (SdpState.resetValues B.env (SdpState.init B.env))).semi one with _ | x
      · rfl
      · exfalso
        unfold SdpState.preUpdate at hget
        simp only [Bool.false_eq_true, if_false] at hget
        rcases (SdpState.evalLoop_of B.env _ true _ _).2.1 one x hget with h | ⟨h, _⟩
        · have h : Dict.get ([] : Dict Mon (Rat × Mon)) one = some x := h
          simp at h
        · have := (SdpState.remaining_of B.env _ true one h).2
          simp [one] at this

/-- The semi-known moments are moments of the program. -/
theorem semi_mem (hV : Setup I cols ch name B) (hch : UsualChoice ch I) (solver : Args → SolverOut) (h : List (Call Mon)) (hl : ∀ c ∈ h, Linearised I c) {a : Args}
    (ha : SdpState.solverArgs B.env (SdpState.run B.env solver h) = some a) : ∀ s ∈ (solverInput cols.length B a).semiknown, s.1 ∈ (solverInput cols.length B a).masks.keys := by
  obtain ⟨_, _, _, _, _, _, _, _, _, _, henv⟩ := build_some hV.built
  have hsup : B.env.supports = false := by rw [henv]
  have hg := SdpState.run_good B.env solver h
  obtain ⟨k, -, h2⟩ := split_run (adjoint hV hch) hsup solver h (fun c hc => fresh_of hV hch (hl c hc))
  unfold SdpState.solverArgs at ha
  split at ha
  swap
  · simp at ha
  have ha := Option.some.inj ha
  subst ha
  intro s hs
  obtain ⟨t, ht, rfl⟩ := List.mem_map.1 hs
  have ht' := (State.get_of_mem _ hg.semi t.1 t.2).1 ht
  have hm := (h2 t.1 t.2.1 t.2.2 ht').1
  rw [henv] at hm
  obtain ⟨u, hu, e⟩ := List.mem_map.1 hm
  show some t.1 ∈ Dict.keys (masks cols.length B)
  unfold masks State.Dict.keys
  rw [List.map_append, List.map_map, List.mem_append]
  left
  exact List.mem_map.2 ⟨u, hu, by simp [e]⟩

/-- **C70, models.** A distribution of a model of the inflated network is not excluded by the linearised constraints: the problem handed to the solver is feasible, as is the one in which
feasibility is solved as an optimisation, and no dual point is negative. -/
theorem C70_never_excluded_partial [StarModule ℝ R] (hV : Setup I cols ch name B) (hch : UsualChoice ch I) (hone : [] ∈ cols) (M : InflatedModel I R) (hherm : ∀ m ∈ B.env.hermitian, 0 ≤ M.value m)
    {P : List Nat → Rat} (hR : M.Realises P) (hT : NotTiny I B P) (solver : Args → SolverOut) :
    ∃ c, setDistribution I B P true false = some c ∧ SdpState.Ok B.env solver [c] ∧
      ∃ a, SdpState.solverArgs B.env (SdpState.run B.env solver [c]) = some a ∧
        ∀ fl : SdpSolver.Flags (Option Mon), fl.nonneg = false → (fl.feas = true → fl.Fresh (solverInput cols.length B a)) →
          ∃ Q : SdpSolver.Prep (Option Mon) ℝ cols.length, SdpSolver.prep fl (solverInput cols.length B a) = some Q ∧
            (∃ x G, Q.Primal false x G ∧ Q.primalValue x = 0) ∧ ∀ (Z : SdpSolver.Mat cols.length ℝ) (mi me : Nat → ℝ), Q.Dual false Z mi me → 0 ≤ Q.dualValue fl.feas Z mi me := by
  obtain ⟨c, hc, hok, a, ha⟩ := C70_no_exception hV hch hone M hherm hR hT solver
  have hsup : B.env.supports = false := by obtain ⟨_, _, _, _, _, _, _, _, _, _, henv⟩ := build_some hV.built; rw [henv]
  have hl : ∀ d ∈ [c], Linearised I d := by
    intro d hd
    rw [List.mem_singleton.1 hd]
    exact linearised_distribution hV hch hc
  have ht : ∀ d ∈ [c], Truthful I B M d := by
    intro d hd
    rw [List.mem_singleton.1 hd]
    exact .distribution hR (fun _ => hT) hc
  have U : Used I cols ch name B M solver [c] a := ⟨hV, ht, hok, ha, C70_separated hV hch solver _ hl ha⟩
  refine ⟨c, hc, hok, a, ha, fun fl hn hfr => ?_⟩
  obtain ⟨Q, hQ⟩ := SdpSolver.C32_accepted U.input_ok hfr (semi_mem hV hch solver _ hl ha)
  refine ⟨Q, hQ, ?_⟩
  obtain ⟨vals, hvals, hcv⟩ : ∃ vals, distributionValues I B P = some vals ∧ c = .setValues vals true false := by
    obtain ⟨v, hv, rfl⟩ := Option.map_eq_some_iff.1 (show Option.map _ _ = _ from hc)
    exact ⟨v, hv, rfl⟩
  have h0 : dictR (SdpState.run B.env solver [c]).objective M.value = 0 := by
    subst hcv
    rw [(fresh_objective hsup hok).1]
    simp [dictR]
  have hr : ∀ d ∈ [c], d ≠ .reset .values := by
    intro d hd
    rw [List.mem_singleton.1 hd, hcv]
    simp
  rcases hfe : fl.feas with _ | _
  · refine ⟨?_, fun Z mi me hd => ?_⟩
    · obtain ⟨x, G, h1, h2⟩ := C56_primal_is_feasible_partial U hherm hr hfe hn hQ
      exact ⟨x, G, h1, by rw [h2, h0]⟩
    · have := C56_dual_is_bounded_partial U hherm hr hfe hn hQ hd
      rwa [h0] at this
  · exact C56_feasibility_not_negative_partial U hherm hfe hn (hfr hfe) hQ

end

/-- If the probabilities of the atoms which are not zero are at least `δ` in absolute value and no moment has more than `L` factors, where `δ^L` exceeds 10⁻⁸, then no product is tiny. -/
theorem C70_not_tiny {P : List Nat → Rat} {δ : Rat} {L : Nat} (h0 : 0 ≤ δ) (h1 : δ ≤ 1) (hd : 1 / 100000000 < δ ^ L) (hL : ∀ m ∈ B.env.moments, m.length ≤ L)
    (hp : ∀ b, [b] ∈ atomicMonomials B → knowable I b = true → ∀ p, atomMarginal I P b = some p → p = 0 ∨ δ ≤ |p|) : NotTiny I B P := by
  intro m hm f hf ps hps hle
  by_contra hne
  have hlen : f.length ≤ L := by
    rcases hf with hf | hf
    · exact hf.length_le.trans (hL m hm)
    · exact hf.length_le.trans (by rw [List.length_map]; exact hL m hm)
  have key : δ ^ f.length ≤ |ps.prod| := by
    clear hf hle hlen
    induction hps with
    | nil => simp
    | @cons a p f ps hap _ ih =>
      obtain ⟨b, hb, hk, -, hm⟩ := hap
      rw [List.prod_cons] at hne
      rw [List.prod_cons, abs_mul, List.length_cons, pow_succ, mul_comm]
      refine mul_le_mul ?_ (ih fun h => hne (by rw [h, mul_zero])) (pow_nonneg h0 _) (abs_nonneg _)
      rcases hp b hb hk p hm with h | h
      · exact absurd (by rw [h, zero_mul]) hne
      · exact h
  exact absurd (((hd.trans_le (pow_le_pow_of_le_one h0 h1 hlen)).trans_le key).trans_le hle) (lt_irrefl _)

/-- **C70 for the graph the user draws.** If a classical causal model of the graph generates the distribution `P`, then for every inflation and every generating set that contains the unit
`set_distribution(P, use_lpi_constraints=True)` raises no exception and the program then solved is feasible. -/
theorem C70_distribution_never_excluded {Λ : Type} [Fintype Λ] (hI : I.Accepted) (hD : WellFormed I.D) (hs : SdpEnd.HasSources I.D)
    (M : CausalModel I.D I.outcomes I.priv Λ ℝ) {P : List Nat → Rat} (hP : M.Generates fun t => ((P t : Rat) : ℝ)) (hV : Setup I cols ch name B) (hch : UsualChoice ch I) (hone : [] ∈ cols)
    (hT : NotTiny I B P) (solver : Args → SolverOut) :
    ∃ c, setDistribution I B P true false = some c ∧ SdpState.Ok B.env solver [c] ∧
      ∃ a, SdpState.solverArgs B.env (SdpState.run B.env solver [c]) = some a ∧
        ∀ fl : SdpSolver.Flags (Option Mon), fl.nonneg = false → (fl.feas = true → fl.Fresh (solverInput cols.length B a)) →
          ∃ Q : SdpSolver.Prep (Option Mon) ℝ cols.length, SdpSolver.prep fl (solverInput cols.length B a) = some Q ∧
            (∃ x G, Q.Primal false x G ∧ Q.primalValue x = 0) ∧ ∀ (Z : SdpSolver.Mat cols.length ℝ) (mi me : Nat → ℝ), Q.Dual false Z mi me → 0 ≤ Q.dualValue fl.feas Z mi me :=
  C70_never_excluded_partial hV hch hone (inflated hI hD hs M) (fun m _ => classical_nonneg hI _ _ m) (classical_realises hI _ _ (toClassical_realises hI hD M hP)) hT solver

end Verif.Linear

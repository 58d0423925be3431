import Verif.SdpState.Props
import Verif.State.LpProps
/-
C43 and the unit moment (C27) for `InflationSDP`.
-/
namespace Verif.SdpState
open Verif.Common Verif.Moment
open Verif.State (Dict Mon dictVal valM get_set get_cons get_nil get_filter mem_keys get_none mem_set_keys nodup_set nodup_filter get_of_mem fold_set_nodup dictVal_set)

variable {K : Type}

theorem dictVal_erase (d : Dict Mon Rat) (k : Mon) (c : Rat) (hn : d.keys.Nodup) (h : d.get k = some c) (y : Mon → Rat) :
    dictVal (d.erase k) y = dictVal d y - c * y k := by
  induction d with
  | nil => simp at h
  | cons t d ih =>
    obtain ⟨a, b⟩ := t
    have hn' : a ∉ Dict.keys d ∧ (Dict.keys d).Nodup := by simpa [Dict.keys] using hn
    rw [get_cons] at h
    have h1 : ∀ (p : Mon × Rat) (l : Dict Mon Rat), dictVal (p :: l) y = p.2 * y p.1 + dictVal l y := fun p l => by simp [dictVal]
    by_cases e : a = k
    · subst e
      rw [if_pos rfl] at h
      simp only [Option.some.injEq] at h
      subst h
      have : Dict.erase ((a, b) :: d) a = d := by
        unfold Dict.erase
        rw [List.filter_cons_of_neg (by simp)]
        apply List.filter_eq_self.2
        intro t ht
        have : t.1 ≠ a := fun e => hn'.1 (e ▸ List.mem_map.2 ⟨t, ht, rfl⟩)
        simp [this]
      rw [this, h1]
      ring
    · rw [if_neg e] at h
      have : Dict.erase ((a, b) :: d) k = (a, b) :: Dict.erase d k := by
        unfold Dict.erase
        rw [List.filter_cons_of_pos (by simp [e])]
      rw [this, h1, h1, ih hn'.2 h]
      ring

/-- Substituting known values does not change the value at points that agree with them. -/
theorem processKnown_val (known obj : Dict Mon Rat) (hn : obj.keys.Nodup) (y : Mon → Rat) (h1 : y one = 1) (hy : ∀ m v, known.get m = some v → y m = v) :
    dictVal (processKnown known obj) y = dictVal obj y := by
  unfold processKnown
  have key : ∀ (l : Dict Mon Rat) (p : Dict Mon Rat), l.keys.Nodup → (∀ t ∈ l, t.1 ≠ one ∧ (known.get t.1).isSome = true ∧ p.get t.1 = some t.2) → p.keys.Nodup →
      dictVal (l.foldl (fun p t => (p.set one ((p.get one).getD 0 + t.2 * (known.get t.1).getD 0)).erase t.1) p) y = dictVal p y := by
    intro l
    induction l with
    | nil => intro p _ _ _; rfl
    | cons t l ih =>
      intro p hl ht hp
      rw [List.foldl_cons]
      have hl' : t.1 ∉ Dict.keys l ∧ (Dict.keys l).Nodup := by simpa [Dict.keys] using hl
      obtain ⟨t1, t2, t3⟩ := ht t (by simp)
      have hset : (p.set one ((p.get one).getD 0 + t.2 * (known.get t.1).getD 0)).keys.Nodup := nodup_set _ _ _ hp
      have hget : (p.set one ((p.get one).getD 0 + t.2 * (known.get t.1).getD 0)).get t.1 = some t.2 := by
        rw [get_set, if_neg (fun e => t1 e.symm)]; exact t3
      rw [ih _ hl'.2 ?_ (nodup_erase _ _ hset), dictVal_erase _ _ _ hset hget, dictVal_set]
      · obtain ⟨v, hv⟩ := Option.isSome_iff_exists.1 t2
        rw [hv, h1, hy t.1 v hv]
        simp
      · intro u hu
        obtain ⟨u1, u2, u3⟩ := ht u (by simp [hu])
        refine ⟨u1, u2, ?_⟩
        have : t.1 ≠ u.1 := fun e => hl'.1 (e ▸ List.mem_map.2 ⟨u, hu, rfl⟩)
        rw [get_erase, if_neg this, get_set, if_neg (fun e => u1 e.symm)]
        exact u3
  apply key
  · exact nodup_filter _ _ hn
  · intro t ht
    obtain ⟨h2, h3⟩ := List.mem_filter.1 ht
    simp only [Bool.and_eq_true, Bool.not_eq_true', decide_eq_false_iff_not] at h3
    exact ⟨h3.1, h3.2, (get_of_mem obj hn t.1 t.2).1 h2⟩
  · exact hn

/-- The moments of the processed objective are those of the objective that are not known (and the unit). -/
theorem processKnown_keys (known obj : Dict Mon Rat) (hn : obj.keys.Nodup) (m : Mon) (hm : m ∈ obj.keys) (hk : known.get m = none) : m ∈ (processKnown known obj).keys := by
  unfold processKnown
  have key : ∀ (l : Dict Mon Rat) (p : Dict Mon Rat), (∀ t ∈ l, t.1 ≠ m) → m ∈ p.keys →
      m ∈ (l.foldl (fun p t => (p.set one ((p.get one).getD 0 + t.2 * (known.get t.1).getD 0)).erase t.1) p).keys := by
    intro l
    induction l with
    | nil => intro p _ h; exact h
    | cons t l ih =>
      intro p ht hp
      rw [List.foldl_cons]
      apply ih _ (fun u hu => ht u (by simp [hu]))
      have hne : t.1 ≠ m := ht t (by simp)
      rw [mem_keys] at hp ⊢
      obtain ⟨v, hv⟩ := hp
      rw [get_erase, if_neg hne, get_set]
      split
      · exact ⟨_, rfl⟩
      · exact ⟨v, hv⟩
  apply key _ _ _ hm
  intro t ht e
  have h3 := (List.mem_filter.1 ht).2
  rw [e, hk] at h3
  simp at h3

theorem cleanup_faithful (E : Env K) (s : St) (hg : Good s) (hok : (cleanup E s).2 = none) : ObjectiveFaithful (cleanup E s).1 := by
  have hg' := supportsStep_good E s hg
  obtain ⟨lo, up, pr, se, q1, _, _, _, _, _, q7⟩ := cleanup_eq E s hg'
  have hpr := (q7 hok).2.2.2.2.1
  intro y y1 hy
  rw [q1] at hy ⊢
  have hob : (supportsStep E s).objective = s.objective := by unfold supportsStep; split <;> rfl
  show dictVal pr y = dictVal (supportsStep E s).objective y
  rw [hob, hpr]
  exact processKnown_val _ _ hg.objective y y1 hy

theorem faithful_congr (s s' : St) (h1 : s'.known = s.known) (h2 : s'.objective = s.objective) (h3 : s'.processed = s.processed) (h : ObjectiveFaithful s) : ObjectiveFaithful s' := by
  intro y y1 hy
  rw [h2, h3]
  exact h y y1 (by rw [← h1]; exact hy)

/-- Bounds, extra constraints and `solve` leave values and objective alone. -/
theorem other_calls (E : Env K) (solver : Args → SolverOut) (s : St) (c : Call K) (hc : (∃ b, c = .setLower b) ∨ (∃ b, c = .setUpper b) ∨ (∃ l, c = .setExtraEq l) ∨
    (∃ l, c = .setExtraIneq l) ∨ c = .solve ∨ c = .reset .bounds ∨ c = .reset .lowerbounds ∨ c = .reset .upperbounds) :
    (call E solver s c).1.known = s.known ∧ (call E solver s c).1.objective = s.objective ∧ (call E solver s c).1.processed = s.processed ∧ (call E solver s c).1.maximize = s.maximize := by
  have hlo : ∀ s : St, (updateLower s).1.known = s.known ∧ (updateLower s).1.objective = s.objective ∧ (updateLower s).1.processed = s.processed ∧ (updateLower s).1.maximize = s.maximize :=
    fun s => by unfold updateLower; split <;> exact ⟨rfl, rfl, rfl, rfl⟩
  have hup : ∀ s : St, (updateUpper s).1.known = s.known ∧ (updateUpper s).1.objective = s.objective ∧ (updateUpper s).1.processed = s.processed ∧ (updateUpper s).1.maximize = s.maximize :=
    fun s => by unfold updateUpper; split <;> exact ⟨rfl, rfl, rfl, rfl⟩
  have hat : ∀ (r : Out) (f : St → Out), (r.1.known = s.known ∧ r.1.objective = s.objective ∧ r.1.processed = s.processed ∧ r.1.maximize = s.maximize) →
      (∀ s' : St, (s'.known = s.known ∧ s'.objective = s.objective ∧ s'.processed = s.processed ∧ s'.maximize = s.maximize) →
        ((f s').1.known = s.known ∧ (f s').1.objective = s.objective ∧ (f s').1.processed = s.processed ∧ (f s').1.maximize = s.maximize)) →
      ((andThen r f).1.known = s.known ∧ (andThen r f).1.objective = s.objective ∧ (andThen r f).1.processed = s.processed ∧ (andThen r f).1.maximize = s.maximize) := by
    intro r f h hf
    unfold andThen
    split
    · exact hf _ h
    · exact h
  rcases hc with ⟨b, rfl⟩ | ⟨b, rfl⟩ | ⟨l, rfl⟩ | ⟨l, rfl⟩ | rfl | rfl | rfl | rfl
  · show (setLower E b s).1.known = _ ∧ (setLower E b s).1.objective = _ ∧ (setLower E b s).1.processed = _ ∧ (setLower E b s).1.maximize = _
    unfold setLower
    split
    · exact ⟨rfl, rfl, rfl, rfl⟩
    · split
      · exact ⟨rfl, rfl, rfl, rfl⟩
      · refine hat _ _ (hlo _) ?_
        intro s' h'
        rw [(hlo _).1, (hlo _).2.1, (hlo _).2.2.1, (hlo _).2.2.2]; exact h'
  · show (setUpper E b s).1.known = _ ∧ (setUpper E b s).1.objective = _ ∧ (setUpper E b s).1.processed = _ ∧ (setUpper E b s).1.maximize = _
    unfold setUpper
    split
    · exact ⟨rfl, rfl, rfl, rfl⟩
    · split
      · exact ⟨rfl, rfl, rfl, rfl⟩
      · refine hat _ _ ⟨rfl, rfl, rfl, rfl⟩ ?_
        intro s' h'
        rw [(hup _).1, (hup _).2.1, (hup _).2.2.1, (hup _).2.2.2]; exact h'
  · exact ⟨rfl, rfl, rfl, rfl⟩
  · exact ⟨rfl, rfl, rfl, rfl⟩
  · show (solve E solver s).1.known = _ ∧ (solve E solver s).1.objective = _ ∧ (solve E solver s).1.processed = _ ∧ (solve E solver s).1.maximize = _
    unfold solve
    split <;> exact ⟨rfl, rfl, rfl, rfl⟩
  · exact hat _ _ (hlo _) (fun s' h' => h')
  · exact hlo _
  · exact ⟨rfl, rfl, rfl, rfl⟩

/-- **C43, SDP, partial.** In every history without exceptions and without `reset("values")`, the objective passed to the solver has the value of the user's objective at every point that agrees
with the known values. Missing: `reset("values")`, calls that raise, and semi-known moments in the objective, see below. -/
theorem C43_sdp_objective_partial (E : Env K) (solver : Args → SolverOut) (h : List (Call K)) (hok : Ok E solver h) (hr : ∀ c ∈ h, c ≠ .reset .values) :
    ObjectiveFaithful (run E solver h) := by
  refine ok_induction E solver ObjectiveFaithful (fun c => c ≠ .reset .values) ?_ ?_ h hr hok
  · show ObjectiveFaithful (setValues E [] false false (setObjective E none true (blank E)).1).1
    have hg0 := setObjective_good E none true _ (blank_good E)
    have hob : (setObjective E none true (blank E)).1.objective = [(one, 0)] := by unfold setObjective; simp [resetObjective]
    have hpr : (setObjective E none true (blank E)).1.processed = [(one, 0)] := by unfold setObjective; simp [resetObjective]
    obtain ⟨s', hg, e, _, _, h3⟩ := set_cases E [] false false _ hg0
    rw [e]
    -- whatever the outcome, both objectives are the zero objective
    by_cases hc : (cleanup E s').2 = none
    · exact cleanup_faithful E s' hg hc
    · intro y _ _
      obtain ⟨b, e2⟩ := setValues_eq E [] false false (setObjective E none true (blank E)).1
      have hobj : (cleanup E s').1.objective = [(one, 0)] := by
        rw [← e, e2]
        obtain ⟨n1, n2⟩ := valuesOf_nodup E [] false false
        obtain ⟨lo, up, pr, se, q1, _⟩ := cleanup_eq E { resetValues E (setObjective E none true (blank E)).1 with known := (valuesOf E [] false false).1, semi := (valuesOf E [] false false).2, useLpi := b }
          (supportsStep_good E _ ⟨n1, n2, hg0.lower, hg0.upper, hg0.objective, hg0.one⟩)
        rw [q1]
        show (supportsStep E _).objective = _
        unfold supportsStep
        split <;> exact hob
      have hproc : dictVal (cleanup E s').1.processed y = 0 := by
        have hp0 : dictVal (setObjective E none true (blank E)).1.processed y = 0 := by rw [hpr]; simp [dictVal]
        rw [← e, e2]
        have gen : ∀ s : St, dictVal s.processed y = 0 → s.objective = [(one, 0)] → dictVal (cleanup E s).1.processed y = 0 := by
          intro s h1 h2
          have hs1 : dictVal (supportsStep E s).processed y = 0 := by unfold supportsStep; split <;> exact h1
          have hs2 : (supportsStep E s).objective = [(one, 0)] := by unfold supportsStep; split <;> exact h2
          have hl : dictVal (updateLower (supportsStep E s)).1.processed y = 0 ∧ (updateLower (supportsStep E s)).1.objective = [(one, 0)] := by
            unfold updateLower; split <;> exact ⟨hs1, hs2⟩
          have hat : ∀ (r : Out) (f : St → Out), (dictVal r.1.processed y = 0 ∧ r.1.objective = [(one, 0)]) →
              (∀ s' : St, (dictVal s'.processed y = 0 ∧ s'.objective = [(one, 0)]) → (dictVal (f s').1.processed y = 0 ∧ (f s').1.objective = [(one, 0)])) →
              (dictVal (andThen r f).1.processed y = 0 ∧ (andThen r f).1.objective = [(one, 0)]) := by
            intro r f h hf
            unfold andThen
            split
            · exact hf _ h
            · exact h
          refine (hat _ _ (hat _ _ (hat _ _ hl ?_) ?_) ?_).1
          · intro s' h'; unfold updateUpper; split <;> exact h'
          · intro s' h'
            refine ⟨?_, h'.2⟩
            show dictVal (processKnown s'.known s'.objective) y = 0
            rw [h'.2]
            simp [processKnown, dictVal]
          · intro s' h'; exact h'
        exact gen _ hp0 hob
      rw [hproc, hobj]
      simp [dictVal]
  · intro s c hg hc hok hs
    cases c with
    | setValues v lpi o =>
      obtain ⟨s', hg', e, _⟩ := set_cases E v lpi o s hg
      have hok : (setValues E v lpi o s).2 = none := hok
      show ObjectiveFaithful (setValues E v lpi o s).1
      rw [e] at hok ⊢
      exact cleanup_faithful E s' hg' hok
    | updateValues v lpi o =>
      have hok : (updateValues E v lpi o s).2 = none := hok
      show ObjectiveFaithful (updateValues E v lpi o s).1
      rcases update_cases E v lpi o s hg with e | ⟨s', hg', e, _⟩
      · rw [e]; exact hs
      · rw [e] at hok ⊢
        exact cleanup_faithful E s' hg' hok
    | setObjective o m =>
      have hok : (setObjective E o m s).2 = none := hok
      show ObjectiveFaithful (setObjective E o m s).1
      unfold setObjective at hok ⊢
      split
      · exact hs
      · dsimp only
        cases o with
        | none => intro y _ _; rfl
        | some d =>
          dsimp only
          split
          · intro y y1 hy
            exact processKnown_val _ _ (newObjective_nodup E d m).1 y y1 hy
          · rename_i h1 h2
            rw [if_neg h1] at hok
            dsimp only at hok
            rw [if_neg h2] at hok
            simp at hok
    | setLower b => obtain ⟨e1, e2, e3, _⟩ := other_calls E solver s (.setLower b) (by simp); exact faithful_congr _ _ e1 e2 e3 hs
    | setUpper b => obtain ⟨e1, e2, e3, _⟩ := other_calls E solver s (.setUpper b) (by simp); exact faithful_congr _ _ e1 e2 e3 hs
    | setExtraEq l => exact faithful_congr _ _ rfl rfl rfl hs
    | setExtraIneq l => exact faithful_congr _ _ rfl rfl rfl hs
    | reset w =>
      cases w with
      | all =>
        intro y _ _
        have hok : (andThen (andThen (resetLower E (resetValues E s)) resetUpper) fun s => (resetObjective s, none)).2 = none := hok
        show dictVal (andThen (andThen (resetLower E (resetValues E s)) resetUpper) fun s => (resetObjective s, none)).1.processed y =
          dictVal (andThen (andThen (resetLower E (resetValues E s)) resetUpper) fun s => (resetObjective s, none)).1.objective y
        generalize andThen (resetLower E (resetValues E s)) resetUpper = r at hok ⊢
        unfold andThen at hok ⊢
        rcases hr : r.2 with _ | x
        · rfl
        · rw [hr] at hok
          simp only at hok
          rw [hr] at hok; simp at hok
      | bounds => obtain ⟨e1, e2, e3, _⟩ := other_calls E solver s (.reset .bounds) (by simp); exact faithful_congr _ _ e1 e2 e3 hs
      | lowerbounds => obtain ⟨e1, e2, e3, _⟩ := other_calls E solver s (.reset .lowerbounds) (by simp); exact faithful_congr _ _ e1 e2 e3 hs
      | upperbounds => obtain ⟨e1, e2, e3, _⟩ := other_calls E solver s (.reset .upperbounds) (by simp); exact faithful_congr _ _ e1 e2 e3 hs
      | objective => intro y _ _; rfl
      | values => exact absurd rfl hc
    | solve => obtain ⟨e1, e2, e3, _⟩ := other_calls E solver s .solve (by simp); exact faithful_congr _ _ e1 e2 e3 hs

/-- **C43, SDP: false after `reset("values")`.** The objective `P[1]` is set, then the value 1/2 for it, then the values are reset: the solver is still asked to maximise the constant 1/2. -/
theorem C43_sdp_stale_objective (solver : Args → SolverOut) :
    let h : List (Call Nat) := [.setObjective (some [(1, 1)]) true, .setValues [(1, some (1 / 2))] false false, .reset .values]
    (run exEnv solver h).known.get [[1]] = none ∧ (run exEnv solver h).objective.get [[1]] = some 1 ∧ (run exEnv solver h).processed = [(one, 1 / 2)] ∧
    ¬ ObjectiveFaithful (run exEnv solver h) := by
  intro h
  have h1 : (run exEnv solver h).processed = [(one, 1 / 2)] := by simp only [h, run, List.foldl, call]; decide +kernel
  have h2 : (run exEnv solver h).objective = [([[1]], 1), (one, 0)] := by simp only [h, run, List.foldl, call]; decide +kernel
  have h3 : (run exEnv solver h).known = [(one, 1)] := by simp only [h, run, List.foldl, call]; decide +kernel
  refine ⟨by rw [h3]; decide, by rw [h2]; decide, h1, ?_⟩
  intro hf
  have := hf (fun m => if m = one then 1 else 0) (by simp) (by
    intro m v hm
    rw [h3, get_cons] at hm
    split at hm
    · rename_i e; subst e; simpa using hm
    · simp at hm)
  rw [h1, h2] at this
  simp [dictVal, one] at this

/-- **C43, SDP: semi-known relations are never substituted.** A call that sets values or an objective, and does not raise, leaves no semi-known moment in the objective: whenever one
would have to be substituted the call raises. -/
theorem C43_sdp_semiknown_raises (E : Env K) (solver : Args → SolverOut) (h : List (Call K)) (c : Call K)
    (hc : (∃ v lpi o, c = .setValues v lpi o) ∨ (∃ v lpi o, v ≠ [] ∧ c = .updateValues v lpi o) ∨ ∃ d m, c = .setObjective (some d) m)
    (hok : (call E solver (run E solver h) c).2 = none) (m : Mon) (hm : m ∈ (run E solver (h ++ [c])).objective.keys) (hk : (run E solver (h ++ [c])).known.get m = none) :
    (run E solver (h ++ [c])).semi.get m = none := by
  rw [run_snoc] at *
  have hg := run_good E solver h
  generalize run E solver h = s at *
  have hcl : ∀ s' : St, Good s' → call E solver s c = cleanup E s' → (call E solver s c).1.semi.get m = none := by
    intro s' hg' e
    rw [e] at hok hm hk ⊢
    have hg2 := supportsStep_good E s' hg'
    obtain ⟨lo, up, pr, se, q1, _, _, _, _, _, q7⟩ := cleanup_eq E s' hg2
    obtain ⟨_, _, _, _, z5, z6, z7⟩ := q7 hok
    have hob : (supportsStep E s').objective = s'.objective := by unfold supportsStep; split <;> rfl
    rw [q1] at hm hk ⊢
    have hm : m ∈ (supportsStep E s').objective.keys := hm
    have hk : (supportsStep E s').known.get m = none := hk
    show se.get m = none
    rw [hob] at hm
    have hin := processKnown_keys (supportsStep E s').known s'.objective hg'.objective m hm hk
    rw [← z5] at hin
    have hnone : (supportsStep E s').semi.get m = none := by
      obtain ⟨t, ht, rfl⟩ := List.mem_map.1 hin
      have := List.any_eq_false.1 z6 t ht
      simpa using this
    rw [z7]
    rcases hx : Dict.get ((supportsStep E s').semi.filter fun t => !(decide (t.1 ∈ (supportsStep E s').known.keys))) m with _ | x
    · rfl
    · rw [get_filter _ _ hg2.semi, hnone] at hx
      simp at hx
  rcases hc with ⟨v, lpi, o, rfl⟩ | ⟨v, lpi, o, hv, rfl⟩ | ⟨d, mx, rfl⟩
  · obtain ⟨s', hg', e, _⟩ := set_cases E v lpi o s hg
    exact hcl s' hg' e
  · have e : updateValues E v lpi o s = cleanup E (preUpdate E v lpi o s) := by
      unfold updateValues
      rw [if_neg (by cases v <;> simp_all)]
    exact hcl _ (pre_good E v lpi o s hg) e
  · have hok : (setObjective E (some d) mx s).2 = none := hok
    have hm : m ∈ (setObjective E (some d) mx s).1.objective.keys := hm
    have hk : (setObjective E (some d) mx s).1.known.get m = none := hk
    show (setObjective E (some d) mx s).1.semi.get m = none
    unfold setObjective at hok hm hk ⊢
    by_cases hE : (E.supports && (some d).isSome) = true
    · rw [if_pos hE] at hok; simp at hok
    · rw [if_neg hE] at hok hm hk ⊢
      dsimp only at hok hm hk ⊢
      by_cases hf : ((newObjective E d mx).keys.all fun m => decide (m ∈ E.moments)) = true
      · rw [if_pos hf] at hok hm hk ⊢
        have hm : m ∈ (newObjective E d mx).keys := hm
        have hk : s.known.get m = none := hk
        show s.semi.get m = none
        have hin := processKnown_keys s.known (newObjective E d mx) (newObjective_nodup E d mx).1 m hm hk
        have hany : ((processKnown s.known (newObjective E d mx)).any fun t => (s.semi.get t.1).isSome) = false := by
          by_contra hcon
          have : ((processKnown s.known (newObjective E d mx)).any fun t => (s.semi.get t.1).isSome) = true := Bool.eq_true_of_not_eq_false hcon
          have hok : (if (processKnown s.known (newObjective E d mx)).any (fun t => (s.semi.get t.1).isSome) then some Err.semiknownInObjective else none) = none := hok
          rw [this] at hok
          simp at hok
        obtain ⟨t, ht, rfl⟩ := List.mem_map.1 hin
        have := List.any_eq_false.1 hany t ht
        simpa using this
      · rw [if_neg hf] at hok; simp at hok

/-- Non-vacuity: the exception does happen. With linearised constraints and the objective `P[1]P[2]`, giving a value to `P[1]` alone raises. -/
theorem C43_sdp_semiknown_crash (solver : Args → SolverOut) :
    let E : Env Nat := { exEnv with san := fun k => if k = 0 then [[1], [2]] else [[k]] }
    (call E solver (run E solver [.setObjective (some [(0, 1)]) true]) (.setValues [(1, some (1 / 2))] true false)).2 = some .semiknownInObjective := by
  simp only [run, List.foldl, call]; decide +kernel

end Verif.SdpState

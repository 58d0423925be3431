import Verif.State.LpLemmas
namespace Verif.State
open Verif.Common Verif.Moment

variable {K : Type}

/-- Dictionaries have distinct keys. -/
structure Good (s : LpState) : Prop where
  known : s.known.keys.Nodup
  semi : s.semi.keys.Nodup
  lower : s.lower.keys.Nodup
  upper : s.upper.keys.Nodup

theorem fold_set_nodup {α β γ : Type} [DecidableEq α] (l : List γ) (f : γ → α) (g : γ → β) (d : Dict α β) (h : d.keys.Nodup) :
    (l.foldl (fun d t => d.set (f t) (g t)) d).keys.Nodup := by
  induction l generalizing d with
  | nil => exact h
  | cons t l ih => exact ih _ (nodup_set _ _ _ h)

theorem cleanup_good (E : Env K) (s : LpState) (h : Good s) : Good (cleanup E s) := by
  unfold cleanup
  split
  · exact ⟨nodup_filter _ _ h.known, nodup_filter _ _ (by simp [Dict.keys]), fold_set_nodup _ _ _ _ h.lower, h.upper⟩
  · exact ⟨h.known, nodup_filter _ _ h.semi, h.lower, h.upper⟩

theorem resetValues_good (s : LpState) (h : Good s) : Good (resetValues s) :=
  ⟨by simp [resetValues, Dict.keys], by simp [resetValues, Dict.keys], h.lower, h.upper⟩

theorem update_good (E : Env K) (v : List (K × Option Rat)) (lpi o : Bool) (s : LpState) (h : Good s) : Good (updateValues E v lpi o s) := by
  unfold updateValues
  split
  · exact h
  · dsimp only
    have hk := assign_nodup E v s.known h.known
    split
    · exact cleanup_good E _ ⟨hk, h.semi, h.lower, h.upper⟩
    · apply cleanup_good
      have := evalLoop_nodup E (atomicKnowns (assignValues E v s.known)) lpi (remainingMons E (atomicKnowns (assignValues E v s.known)) lpi)
        ((assignValues E v s.known).filter fun t => decide (t.1 ∈ E.monomials), s.semi) (nodup_filter _ _ hk) h.semi
      exact ⟨this.1, this.2, h.lower, h.upper⟩

theorem setValues_good (E : Env K) (v : List (K × Option Rat)) (lpi o : Bool) (s : LpState) (h : Good s) : Good (setValues E v lpi o s) := by
  unfold setValues
  dsimp only
  split
  · exact cleanup_good E _ (resetValues_good s h)
  · exact update_good E _ _ _ _ (resetValues_good s h)

theorem sanitiseBounds_nodup (E : Env K) (l : List (K × Rat)) (d d' : Dict Mon Rat) (h : d.keys.Nodup) (hs : sanitiseBounds E l d = some d') : d'.keys.Nodup := by
  induction l generalizing d with
  | nil => simp only [sanitiseBounds, Option.some.injEq] at hs; rw [← hs]; exact h
  | cons t l ih =>
    obtain ⟨k, v⟩ := t
    unfold sanitiseBounds at hs
    split at hs
    · exact ih _ (nodup_set _ _ _ h) hs
    · split at hs
      · exact ih _ h hs
      · simp at hs

theorem setLower_good (E : Env K) (b : Option (List (K × Rat))) (s : LpState) (h : Good s) : Good (setLower E b s) := by
  have h0 : Good (resetLower s) := ⟨h.known, h.semi, by simp [resetLower, Dict.keys], h.upper⟩
  unfold setLower
  split
  · exact h0
  · split
    · rename_i d hd
      exact ⟨h.known, h.semi, sanitiseBounds_nodup E _ _ _ (by simp [Dict.keys]) hd, h.upper⟩
    · exact h0

theorem setUpper_good (E : Env K) (b : Option (List (K × Rat))) (s : LpState) (h : Good s) : Good (setUpper E b s) := by
  have h0 : Good (resetUpper s) := ⟨h.known, h.semi, h.lower, by simp [resetUpper, Dict.keys]⟩
  unfold setUpper
  split
  · exact h0
  · split
    · rename_i d hd
      exact ⟨h.known, h.semi, h.lower, sanitiseBounds_nodup E _ _ _ (by simp [Dict.keys]) hd⟩
    · exact h0

theorem setObjective_good (E : Env K) (o : Option (List (K × Rat))) (m : Bool) (s : LpState) (h : Good s) : Good (setObjective E o m s) := by
  unfold setObjective
  cases o with
  | none => exact ⟨h.known, h.semi, h.lower, h.upper⟩
  | some d => exact ⟨h.known, h.semi, h.lower, h.upper⟩

theorem init_good (E : Env K) : Good (init E) := by
  unfold init
  refine setValues_good E _ _ _ _ (setObjective_good E _ _ _ (setUpper_good E _ _ (setLower_good E _ _ ?_)))
  constructor <;> simp [Dict.keys]

theorem step_good (E : Env K) (solver : Args → SolverOut) (s : LpState) (c : Call K) (h : Good s) : Good (step E solver s c) := by
  cases c with
  | setValues v lpi o => exact setValues_good E v lpi o s h
  | updateValues v lpi o => exact update_good E v lpi o s h
  | setObjective o m => exact setObjective_good E o m s h
  | setLower b => exact setLower_good E b s h
  | setUpper b => exact setUpper_good E b s h
  | setExtraEq l => exact ⟨h.known, h.semi, h.lower, h.upper⟩
  | setExtraIneq l => exact ⟨h.known, h.semi, h.lower, h.upper⟩
  | reset w =>
    cases w with
    | values => exact resetValues_good s h
    | all => exact ⟨by simp [step, reset, resetValues, Dict.keys], by simp [step, reset, resetValues, Dict.keys], by simp [step, reset, resetValues, resetObjective, resetUpper, resetLower, resetSolution, Dict.keys],
        by simp [step, reset, resetValues, resetObjective, resetUpper, resetLower, resetSolution, Dict.keys]⟩
    | bounds => exact ⟨h.known, h.semi, by simp [step, reset, resetUpper, resetLower, resetSolution, Dict.keys], by simp [step, reset, resetUpper, resetLower, resetSolution, Dict.keys]⟩
    | lowerbounds => exact ⟨h.known, h.semi, by simp [step, reset, resetUpper, resetLower, resetSolution, Dict.keys], h.upper⟩
    | upperbounds => exact ⟨h.known, h.semi, h.lower, by simp [step, reset, resetUpper, resetLower, resetSolution, Dict.keys]⟩
    | objective => exact ⟨h.known, h.semi, h.lower, h.upper⟩
  | solve =>
    show Good (solve E solver s)
    unfold solve
    split
    · exact h
    · exact ⟨h.known, h.semi, h.lower, h.upper⟩
  | readEqByName =>
    obtain ⟨c, hc⟩ := eqByName_fst E s
    show Good (eqByName E s).2
    rw [hc]; exact ⟨h.known, h.semi, h.lower, h.upper⟩
  | readIneqByName =>
    obtain ⟨c, hc⟩ := ineqByName_fst E s
    show Good (ineqByName E s).2
    rw [hc]; exact ⟨h.known, h.semi, h.lower, h.upper⟩
  | prepareArguments b =>
    obtain ⟨c, c', hc⟩ := argsByName_fst E b s
    show Good (argsByName E b s).2.2
    rw [hc]; exact ⟨h.known, h.semi, h.lower, h.upper⟩

theorem run_good (E : Env K) (solver : Args → SolverOut) (h : List (Call K)) : Good (run E solver h) :=
  run_induction E solver Good (init_good E) (step_good E solver) h

/-! ## What setting values does to the two dictionaries -/

theorem cleanup_known_ns (E : Env K) (hE : E.supports = false) (s : LpState) : (cleanup E s).known = s.known := by
  simp [cleanup, hE]

theorem cleanup_semi_get (E : Env K) (hE : E.supports = false) (s : LpState) (hs : s.semi.keys.Nodup) (m : Mon) :
    (cleanup E s).semi.get m = if m ∈ s.known.keys then none else s.semi.get m := by
  have : (cleanup E s).semi = s.semi.filter fun t => !(decide (t.1 ∈ s.known.keys)) := by simp [cleanup, hE]
  rw [this]
  rcases hg : Dict.get (s.semi.filter fun t => !(decide (t.1 ∈ s.known.keys))) m with _ | v
  · by_cases hm : m ∈ s.known.keys
    · simp [hm]
    · rw [if_neg hm]
      rcases hs' : s.semi.get m with _ | w
      · rfl
      · have := (get_filter s.semi (fun t => !(decide (t.1 ∈ s.known.keys))) hs m w).2 ⟨hs', by simp [hm]⟩
        rw [hg] at this
        simp at this
  · have := (get_filter s.semi (fun t => !(decide (t.1 ∈ s.known.keys))) hs m v).1 hg
    have hm : m ∉ s.known.keys := by simpa using this.2
    rw [if_neg hm, this.1]

/-- After clean-up nothing is both known and semi-known. -/
theorem cleanup_disjoint (E : Env K) (s : LpState) (m : Mon) : ¬ (m ∈ (cleanup E s).known.keys ∧ m ∈ (cleanup E s).semi.keys) := by
  rintro ⟨h1, h2⟩
  have key : ∀ (d : Dict Mon (Rat × Mon)) (k : Dict Mon Rat), m ∈ k.keys → ¬ m ∈ Dict.keys (d.filter fun t => !(decide (t.1 ∈ k.keys))) := by
    intro d k h1 h2
    simp only [Dict.keys, List.mem_map, List.mem_filter] at h2
    obtain ⟨t, ⟨_, ht⟩, rfl⟩ := h2
    simp only [Bool.not_eq_true', decide_eq_false_iff_not] at ht
    apply ht
    simpa [Dict.keys] using h1
  exact key _ _ h1 h2

/-- The moments that `update_values` evaluates: those with more than one factor that could come out known or semi-known. -/
theorem mem_remaining (E : Env K) (at' : Dict Atom Rat) (lpi : Bool) (m : Mon) (h2 : ∃ a ∈ m, (at'.get a).isSome = true) (hlpi : lpi = true ∨ ∀ a ∈ m, (at'.get a).isSome = true) :
    m ∈ remainingMons E at' lpi ↔ m ∈ E.monomials ∧ 2 ≤ m.length := by
  have hat : (compound E.info m).isAtomic = decide (m.length ≤ 1) := by
    show decide ((sortBy atomLe m).length ≤ 1) = _
    rw [(sortBy_perm atomLe m).length_eq]
  have hlen : (!(compound E.info m).isAtomic) = true ↔ 2 ≤ m.length := by
    rw [hat]; simp; omega
  unfold remainingMons
  split
  · rename_i hall
    have hk : ∀ a, (at'.get a).isSome = true → E.info.knowable a = true := by
      intro a ha
      have : a ∈ at'.keys := by
        rw [mem_keys]; exact Option.isSome_iff_exists.1 ha
      simp only [Dict.keys, List.mem_map] at this
      obtain ⟨t, ht, rfl⟩ := this
      exact List.all_eq_true.1 hall t ht
    split
    · rename_i hl
      have hlpi' : ∀ a ∈ m, (at'.get a).isSome = true := by
        rcases hlpi with h | h
        · simp [h] at hl
        · exact h
      have hkn : (compound E.info m).isKnowable = true := by
        show (sortBy atomLe m).all E.info.knowable = true
        rw [List.all_eq_true]
        intro a ha
        exact hk a (hlpi' a ((sortBy_perm atomLe m).mem_iff.1 ha))
      rw [List.mem_filter, hkn, Bool.and_true, hlen]
    · have hst : ((compound E.info m).status == .knowable || (compound E.info m).status == .semi) = true := by
        obtain ⟨a, ha, ha'⟩ := h2
        cases hs : (compound E.info m).status with
        | knowable => rfl
        | semi => rfl
        | unknowable =>
          exfalso
          have := ((C24_status E.info m).2.1.1 hs).2 a ha
          rw [hk a ha'] at this
          simp at this
      rw [List.mem_filter, hst, Bool.and_true, hlen]
  · rw [List.mem_filter, hlen]

end Verif.State

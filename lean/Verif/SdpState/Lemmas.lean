import Verif.SdpState.Spec
import Verif.State.LpInv
namespace Verif.SdpState
open Verif.Common Verif.Moment
open Verif.State (Dict Mon dictVal valM get_set get_cons get_nil get_filter mem_keys get_none mem_set_keys nodup_set nodup_filter get_of_mem fold_set_nodup)

variable {K : Type}

theorem get_erase (d : Dict Mon Rat) (k k' : Mon) : (d.erase k).get k' = if k = k' then none else d.get k' := by
  induction d with
  | nil => simp [Dict.erase]
  | cons t d ih =>
    obtain ⟨a, b⟩ := t
    have ih : Dict.get (d.filter fun t => !(decide (t.1 = k))) k' = if k = k' then none else Dict.get d k' := ih
    show Dict.get (((a, b) :: d).filter fun t => !(decide (t.1 = k))) k' = _
    by_cases h : a = k
    · subst h
      rw [List.filter_cons_of_neg (by simp), ih, get_cons]
      by_cases h2 : a = k' <;> simp [h2]
    · rw [List.filter_cons_of_pos (by simp [h]), get_cons, get_cons, ih]
      by_cases h2 : a = k'
      · subst h2
        have : ¬ k = a := fun e => h e.symm
        simp [this]
      · simp [h2]

theorem nodup_erase (d : Dict Mon Rat) (k : Mon) (h : d.keys.Nodup) : (d.erase k).keys.Nodup := nodup_filter d _ h

/-! ## Bounds -/

theorem boundStep_ok (good : Rat → Rat → Bool) (b b' : Dict Mon Rat) (t : Mon × Rat) (h : boundStep good b t = .ok b') :
    (∀ m, b'.get m = if m = t.1 then none else b.get m) ∧ (∀ x, b.get t.1 = some x → good x t.2 = true) := by
  unfold boundStep at h
  rcases hg : b.get t.1 with _ | x
  · rw [hg] at h
    simp only [Except.ok.injEq] at h
    subst h
    refine ⟨fun m => ?_, by simp⟩
    split
    · rename_i e; rw [e, hg]
    · rfl
  · rw [hg] at h
    simp only at h
    split at h
    · rename_i hgood
      simp only [Except.ok.injEq] at h
      subst h
      refine ⟨fun m => ?_, ?_⟩
      · rw [get_erase]
        by_cases e : m = t.1
        · simp [e]
        · have : ¬ t.1 = m := fun h => e h.symm
          simp [e, this]
      · intro z hz
        simp only [Option.some.injEq] at hz
        subst hz; exact hgood
    · simp at h

theorem boundLoop_ok (good : Rat → Rat → Bool) (known b b' : Dict Mon Rat) (hn : known.keys.Nodup) (h : boundLoop good known b = .ok b') :
    (∀ m, b'.get m = if m ∈ known.keys then none else b.get m) ∧ (∀ m v x, known.get m = some v → b.get m = some x → good x v = true) := by
  induction known generalizing b with
  | nil =>
    simp only [boundLoop, Except.ok.injEq] at h
    subst h
    simp [Dict.keys]
  | cons t l ih =>
    unfold boundLoop at h
    rcases hs : boundStep good b t with e | b1
    · rw [hs] at h; simp at h
    · rw [hs] at h
      simp only at h
      have hn' : t.1 ∉ Dict.keys l ∧ (Dict.keys l).Nodup := by simpa [Dict.keys] using hn
      obtain ⟨h1, h2⟩ := boundStep_ok good b b1 t hs
      obtain ⟨i1, i2⟩ := ih b1 hn'.2 h
      constructor
      · intro m
        rw [i1, h1]
        have : m ∈ Dict.keys (t :: l) ↔ m = t.1 ∨ m ∈ Dict.keys l := by simp [Dict.keys]
        by_cases e1 : m ∈ Dict.keys l
        · rw [if_pos e1, if_pos (this.2 (.inr e1))]
        · by_cases e2 : m = t.1
          · rw [if_neg e1, if_pos e2, if_pos (this.2 (.inl e2))]
          · rw [if_neg e1, if_neg e2, if_neg]
            rw [this]; tauto
      · intro m v x hm hx
        obtain ⟨a, w⟩ := t
        rw [get_cons] at hm
        by_cases e : a = m
        · rw [if_pos e] at hm
          simp only [Option.some.injEq] at hm
          subst hm; subst e
          exact h2 x hx
        · rw [if_neg e] at hm
          apply i2 m v x hm
          rw [h1, if_neg (fun h => e h.symm)]
          exact hx

/-- Whatever happens, bounds are only removed. -/
theorem boundLoop_sub (good : Rat → Rat → Bool) (known b : Dict Mon Rat) (hb : b.keys.Nodup) :
    ∃ b', (boundLoop good known b = .ok b' ∨ boundLoop good known b = .error b') ∧ b'.keys.Nodup ∧ ∀ m x, b'.get m = some x → b.get m = some x := by
  induction known generalizing b with
  | nil => exact ⟨b, .inl rfl, hb, fun m x h => h⟩
  | cons t l ih =>
    unfold boundLoop
    rcases hs : boundStep good b t with e | b1
    · refine ⟨e, .inr rfl, ?_⟩
      unfold boundStep at hs
      split at hs
      · simp at hs
      · split at hs
        · simp at hs
        · simp only [Except.error.injEq] at hs
          subst hs
          exact ⟨hb, fun m x h => h⟩
    · have hb1 : b1.keys.Nodup := by
        unfold boundStep at hs
        split at hs
        · simp only [Except.ok.injEq] at hs; subst hs; exact hb
        · split at hs
          · simp only [Except.ok.injEq] at hs; subst hs; exact nodup_erase _ _ hb
          · simp at hs
      obtain ⟨b', h1, h2, h3⟩ := ih b1 hb1
      refine ⟨b', h1, h2, fun m x hx => ?_⟩
      have := h3 m x hx
      rw [(boundStep_ok good b b1 t hs).1] at this
      split at this
      · simp at this
      · exact this

/-- What `_update_bounds("lo")` does. -/
theorem updateLower_eq (s : St) (hb : s.lower.keys.Nodup) :
    ∃ b' r, updateLower s = ({ s with lower := b' }, r) ∧ b'.keys.Nodup ∧ (∀ m x, b'.get m = some x → s.lower.get m = some x) ∧
      (r = none → s.known.keys.Nodup → (∀ m, b'.get m = if m ∈ s.known.keys then none else s.lower.get m) ∧
        ∀ m v x, s.known.get m = some v → s.lower.get m = some x → x ≤ v) := by
  obtain ⟨b', h1, h2, h3⟩ := boundLoop_sub (fun b v => decide (b ≤ v)) s.known s.lower hb
  unfold updateLower
  rcases h1 with h1 | h1
  · refine ⟨b', none, by rw [h1], h2, h3, fun _ hn => ?_⟩
    obtain ⟨e1, e2⟩ := boundLoop_ok _ _ _ _ hn h1
    exact ⟨e1, fun m v x hm hx => by simpa using e2 m v x hm hx⟩
  · exact ⟨b', some .valueContradictsBound, by rw [h1], h2, h3, by simp⟩

/-- What `_update_bounds("up")` does. -/
theorem updateUpper_eq (s : St) (hb : s.upper.keys.Nodup) :
    ∃ b' r, updateUpper s = ({ s with upper := b' }, r) ∧ b'.keys.Nodup ∧ (∀ m x, b'.get m = some x → s.upper.get m = some x) ∧
      (r = none → s.known.keys.Nodup → (∀ m, b'.get m = if m ∈ s.known.keys then none else s.upper.get m) ∧
        ∀ m v x, s.known.get m = some v → s.upper.get m = some x → v ≤ x) := by
  obtain ⟨b', h1, h2, h3⟩ := boundLoop_sub (fun b v => decide (v ≤ b)) s.known s.upper hb
  unfold updateUpper
  rcases h1 with h1 | h1
  · refine ⟨b', none, by rw [h1], h2, h3, fun _ hn => ?_⟩
    obtain ⟨e1, e2⟩ := boundLoop_ok _ _ _ _ hn h1
    exact ⟨e1, fun m v x hm hx => by simpa using e2 m v x hm hx⟩
  · exact ⟨b', some .valueContradictsBound, by rw [h1], h2, h3, by simp⟩

/-! ## Good states -/

/-- Dictionaries have distinct keys. -/
structure Good (s : St) : Prop where
  known : s.known.keys.Nodup
  semi : s.semi.keys.Nodup
  lower : s.lower.keys.Nodup
  upper : s.upper.keys.Nodup
  objective : s.objective.keys.Nodup
  one : s.objective = [] ∨ one ∈ s.objective.keys

/-- What `_cleanup_after_set_values` does. If nothing is raised all four steps have been done; otherwise the known moments are set and bounds may have been lost. -/
theorem cleanup_eq (E : Env K) (s : St) (hg : Good (supportsStep E s)) :
    ∃ (lo up : Dict Mon Rat) (pr : Dict Mon Rat) (se : Dict Mon (Rat × Mon)), (cleanup E s).1 = { supportsStep E s with lower := lo, upper := up, processed := pr, semi := se } ∧
      lo.keys.Nodup ∧ up.keys.Nodup ∧
      (∀ m x, lo.get m = some x → (supportsStep E s).lower.get m = some x) ∧ (∀ m x, up.get m = some x → s.upper.get m = some x) ∧
      (se = (supportsStep E s).semi ∨ se = (supportsStep E s).semi.filter fun t => !(decide (t.1 ∈ (supportsStep E s).known.keys))) ∧
      ((cleanup E s).2 = none →
        (∀ m, lo.get m = if m ∈ (supportsStep E s).known.keys then none else (supportsStep E s).lower.get m) ∧
        (∀ m v x, (supportsStep E s).known.get m = some v → (supportsStep E s).lower.get m = some x → x ≤ v) ∧
        (∀ m, up.get m = if m ∈ (supportsStep E s).known.keys then none else s.upper.get m) ∧
        (∀ m v x, (supportsStep E s).known.get m = some v → s.upper.get m = some x → v ≤ x) ∧
        pr = processKnown (supportsStep E s).known s.objective ∧
        (pr.any fun t => ((supportsStep E s).semi.get t.1).isSome) = false ∧
        se = (supportsStep E s).semi.filter fun t => !(decide (t.1 ∈ (supportsStep E s).known.keys))) := by
  have hup : (supportsStep E s).upper = s.upper := by unfold supportsStep; split <;> rfl
  have hob : (supportsStep E s).objective = s.objective := by unfold supportsStep; split <;> rfl
  obtain ⟨lo, r, h1, h2, h3, h4⟩ := updateLower_eq (supportsStep E s) hg.lower
  unfold cleanup
  rw [h1]
  rcases r with _ | e
  · obtain ⟨up, r, u1, u2, u3, u4⟩ := updateUpper_eq { supportsStep E s with lower := lo } hg.upper
    have u3 : ∀ m x, up.get m = some x → s.upper.get m = some x := by rw [← hup]; exact u3
    have u4 : r = none → (supportsStep E s).known.keys.Nodup → (∀ m, up.get m = if m ∈ (supportsStep E s).known.keys then none else s.upper.get m) ∧
        ∀ m v x, (supportsStep E s).known.get m = some v → s.upper.get m = some x → v ≤ x := by rw [← hup]; exact u4
    obtain ⟨hlo, hlo2⟩ := h4 rfl hg.known
    simp only [andThen]
    rw [u1]
    rcases r with _ | e
    · obtain ⟨hup1, hup2⟩ := u4 rfl hg.known
      simp only [updateObjective]
      rw [hob]
      by_cases hse : (processKnown (supportsStep E s).known s.objective).any (fun t => ((supportsStep E s).semi.get t.1).isSome) = true
      · refine ⟨lo, up, processKnown (supportsStep E s).known s.objective, (supportsStep E s).semi, ?_, h2, u2, h3, u3, .inl rfl, ?_⟩
        · simp [hse]
        · simp [hse]
      · have hse' := Bool.eq_false_iff.2 hse
        refine ⟨lo, up, processKnown (supportsStep E s).known s.objective, _, ?_, h2, u2, h3, u3, .inr rfl, ?_⟩
        · simp [hse', dropSemi]
        · intro _
          exact ⟨hlo, hlo2, hup1, hup2, rfl, hse', rfl⟩
    · exact ⟨lo, up, s.processed, (supportsStep E s).semi, by simp; unfold supportsStep; split <;> rfl, h2, u2, h3, u3, .inl rfl, by simp⟩
  · refine ⟨lo, s.upper, s.processed, (supportsStep E s).semi, ?_, h2, by rw [← hup]; exact hg.upper, h3, fun m x h => h, .inl rfl, by simp [andThen]⟩
    simp only [andThen]
    unfold supportsStep; split <;> rfl

theorem supportsStep_good (E : Env K) (s : St) (h : Good s) : Good (supportsStep E s) := by
  unfold supportsStep
  split
  · exact ⟨nodup_filter _ _ h.known, by simp [Dict.keys], fold_set_nodup _ _ _ _ h.lower, h.upper, h.objective, h.one⟩
  · exact h

theorem cleanup_good (E : Env K) (s : St) (h : Good s) : Good (cleanup E s).1 := by
  have hg := supportsStep_good E s h
  obtain ⟨lo, up, pr, se, h1, h2, h3, _, _, h6, _⟩ := cleanup_eq E s hg
  rw [h1]
  refine ⟨hg.known, ?_, h2, h3, hg.objective, hg.one⟩
  rcases h6 with h6 | h6
  · show se.keys.Nodup
    rw [h6]; exact hg.semi
  · show se.keys.Nodup
    rw [h6]; exact nodup_filter _ _ hg.semi

theorem defaultLower_nodup (E : Env K) : (defaultLower E).keys.Nodup := fold_set_nodup _ _ (fun _ => (0 : Rat)) _ (by simp [Dict.keys])

theorem updateLower_good (s : St) (h : Good s) : Good (updateLower s).1 := by
  obtain ⟨b, r, h1, h2, _⟩ := updateLower_eq s h.lower
  rw [h1]; exact ⟨h.known, h.semi, h2, h.upper, h.objective, h.one⟩

theorem updateUpper_good (s : St) (h : Good s) : Good (updateUpper s).1 := by
  obtain ⟨b, r, h1, h2, _⟩ := updateUpper_eq s h.upper
  rw [h1]; exact ⟨h.known, h.semi, h.lower, h2, h.objective, h.one⟩

theorem resetLower_good (E : Env K) (s : St) (h : Good s) : Good (resetLower E s).1 :=
  updateLower_good _ ⟨h.known, h.semi, defaultLower_nodup E, h.upper, h.objective, h.one⟩

theorem resetUpper_good (s : St) (h : Good s) : Good (resetUpper s).1 := ⟨h.known, h.semi, h.lower, by simp [resetUpper, Dict.keys], h.objective, h.one⟩

theorem resetObjective_good (s : St) (h : Good s) : Good (resetObjective s) :=
  ⟨h.known, h.semi, h.lower, h.upper, by simp [resetObjective, Dict.keys], .inr (by simp [resetObjective, Dict.keys])⟩

theorem resetValues_good (E : Env K) (s : St) (h : Good s) : Good (resetValues E s) := by
  refine ⟨?_, by simp [resetValues, Dict.keys], h.lower, h.upper, h.objective, h.one⟩
  apply nodup_set
  cases E.zero with
  | none => simp [Dict.keys]
  | some z => exact nodup_set _ _ _ (by simp [Dict.keys])

theorem andThen_good (r : Out) (f : St → Out) (h : Good r.1) (hf : ∀ s, Good s → Good (f s).1) : Good (andThen r f).1 := by
  unfold andThen
  split
  · exact hf _ h
  · exact h

theorem assign_nodup (E : Env K) (values : List (K × Option Rat)) (d : Dict Mon Rat) (h : d.keys.Nodup) : (assignValues E values d).keys.Nodup := by
  unfold assignValues
  induction values generalizing d with
  | nil => exact h
  | cons t values ih =>
    rw [List.foldl_cons]
    apply ih
    cases t.2 with
    | none => exact h
    | some v => exact nodup_set _ _ _ h

theorem evalLoop_nodup (E : Env K) (at' : Dict Atom Rat) (lpi : Bool) (ms : List Mon) (st : Dict Mon Rat × Dict Mon (Rat × Mon))
    (h1 : st.1.keys.Nodup) (h2 : st.2.keys.Nodup) :
    (ms.foldl (evalMon E at' lpi) st).1.keys.Nodup ∧ (ms.foldl (evalMon E at' lpi) st).2.keys.Nodup := by
  induction ms generalizing st with
  | nil => exact ⟨h1, h2⟩
  | cons m ms ih =>
    rw [List.foldl_cons]
    apply ih
    · unfold evalMon
      dsimp only
      split
      · exact nodup_set _ _ _ h1
      · split <;> exact h1
      · exact h1
    · unfold evalMon
      dsimp only
      split
      · exact h2
      · split
        · exact nodup_set _ _ _ h2
        · exact h2
      · exact h2

theorem pre_good (E : Env K) (v : List (K × Option Rat)) (lpi o : Bool) (s : St) (h : Good s) : Good (preUpdate E v lpi o s) := by
  have hk := assign_nodup E v s.known h.known
  unfold preUpdate
  cases o with
  | true => exact ⟨hk, h.semi, h.lower, h.upper, h.objective, h.one⟩
  | false =>
    have := evalLoop_nodup E (atomicKnowns E (assignValues E v s.known)) lpi (remainingMons E (atomicKnowns E (assignValues E v s.known)) lpi)
      ((assignValues E v s.known).filter fun t => decide (t.1 ∈ E.moments), s.semi) (nodup_filter _ _ hk) h.semi
    exact ⟨this.1, this.2, h.lower, h.upper, h.objective, h.one⟩

theorem update_good (E : Env K) (v : List (K × Option Rat)) (lpi o : Bool) (s : St) (h : Good s) : Good (updateValues E v lpi o s).1 := by
  unfold updateValues
  split
  · exact h
  · exact cleanup_good E _ (pre_good E v lpi o s h)

theorem setValues_good (E : Env K) (v : List (K × Option Rat)) (lpi o : Bool) (s : St) (h : Good s) : Good (setValues E v lpi o s).1 := by
  unfold setValues
  dsimp only
  split
  · exact cleanup_good E _ (resetValues_good E s h)
  · exact update_good E _ _ _ _ (resetValues_good E s h)

theorem sanitiseBounds_nodup (E : Env K) (l : List (K × Rat)) (d d' : Dict Mon Rat) (h : d.keys.Nodup) (hs : sanitiseBounds E l d = some d') : d'.keys.Nodup := by
  induction l generalizing d with
  | nil => simp only [sanitiseBounds, Option.some.injEq] at hs; rw [← hs]; exact h
  | cons t l ih =>
    obtain ⟨k, v⟩ := t
    unfold sanitiseBounds at hs
    split at hs
    · exact ih _ (nodup_set _ _ _ h) hs
    · split at hs
      · exact ih _ h hs
      · simp at hs

theorem sanitise_nodup (E : Env K) (d : List (K × Rat)) : (sanitiseDict E d).keys.Nodup := by
  unfold sanitiseDict
  have : ∀ out : Dict Mon Rat, out.keys.Nodup →
      (d.foldl (fun out t => if isClose0 t.2 then out else out.set (E.san t.1) ((out.get (E.san t.1)).getD 0 + t.2)) out).keys.Nodup := by
    induction d with
    | nil => intro out h; exact h
    | cons t d ih =>
      intro out h
      rw [List.foldl_cons]
      apply ih
      split
      · exact h
      · exact nodup_set _ _ _ h
  exact this [] (by simp [Dict.keys])

theorem setDefault_nodup (d : Dict Mon Rat) (k : Mon) (v : Rat) (h : d.keys.Nodup) : (setDefault d k v).keys.Nodup ∧ k ∈ (setDefault d k v).keys := by
  unfold setDefault
  split
  · rename_i hs
    refine ⟨h, ?_⟩
    rw [mem_keys]
    exact Option.isSome_iff_exists.1 hs
  · refine ⟨nodup_set _ _ _ h, ?_⟩
    rw [mem_set_keys]; exact .inl rfl

theorem newObjective_nodup (E : Env K) (d : List (K × Rat)) (mx : Bool) : (newObjective E d mx).keys.Nodup ∧ one ∈ (newObjective E d mx).keys := by
  have h : (Dict.keys ((sanitiseDict E d).map fun t => (t.1, (if mx then 1 else -1) * t.2))).Nodup := by
    have := sanitise_nodup E d
    unfold Dict.keys at this ⊢
    rw [List.map_map]
    exact this
  exact setDefault_nodup _ _ _ h

theorem setObjective_good (E : Env K) (o : Option (List (K × Rat))) (m : Bool) (s : St) (h : Good s) : Good (setObjective E o m s).1 := by
  unfold setObjective
  split
  · exact h
  · cases o with
    | none => exact ⟨h.known, h.semi, h.lower, h.upper, by simp [resetObjective, Dict.keys], .inr (by simp [resetObjective, Dict.keys])⟩
    | some d =>
      have hn := newObjective_nodup E d m
      dsimp only
      split
      · exact ⟨h.known, h.semi, h.lower, h.upper, hn.1, .inr hn.2⟩
      · exact ⟨h.known, h.semi, h.lower, h.upper, hn.1, .inr hn.2⟩

theorem call_good (E : Env K) (solver : Args → SolverOut) (s : St) (c : Call K) (h : Good s) : Good (call E solver s c).1 := by
  cases c with
  | setValues v lpi o => exact setValues_good E v lpi o s h
  | updateValues v lpi o => exact update_good E v lpi o s h
  | setObjective o m => exact setObjective_good E o m s h
  | setLower b =>
    show Good (setLower E b s).1
    unfold setLower
    split
    · exact h
    · split
      · exact h
      · apply andThen_good _ _ (resetLower_good E s h)
        intro s' h'
        exact updateLower_good _ ⟨h'.known, h'.semi, fold_set_nodup _ _ _ _ h'.lower, h'.upper, h'.objective, h'.one⟩
  | setUpper b =>
    show Good (setUpper E b s).1
    unfold setUpper
    split
    · exact h
    · split
      · exact h
      · rename_i d hd
        apply andThen_good _ _ (resetUpper_good s h)
        intro s' h'
        exact updateUpper_good _ ⟨h'.known, h'.semi, h'.lower, sanitiseBounds_nodup E _ _ _ (by simp [Dict.keys]) hd, h'.objective, h'.one⟩
  | setExtraEq l => exact ⟨h.known, h.semi, h.lower, h.upper, h.objective, h.one⟩
  | setExtraIneq l => exact ⟨h.known, h.semi, h.lower, h.upper, h.objective, h.one⟩
  | reset w =>
    cases w with
    | all =>
      refine andThen_good _ _ (andThen_good _ _ (resetLower_good E _ (resetValues_good E s h)) resetUpper_good) ?_
      exact fun s' h' => resetObjective_good s' h'
    | bounds => exact andThen_good _ _ (resetLower_good E _ h) resetUpper_good
    | lowerbounds => exact resetLower_good E s h
    | upperbounds => exact resetUpper_good s h
    | objective => exact resetObjective_good s h
    | values => exact resetValues_good E s h
  | solve =>
    show Good (solve E solver s).1
    unfold solve
    split
    · exact h
    · exact ⟨h.known, h.semi, h.lower, h.upper, h.objective, h.one⟩

theorem blank_good (E : Env K) : Good (blank E) :=
  ⟨by simp [blank, Dict.keys], by simp [blank, Dict.keys], defaultLower_nodup E, by simp [blank, Dict.keys], by simp [blank, Dict.keys], .inl rfl⟩

theorem init_good (E : Env K) : Good (init E) := setValues_good E _ _ _ _ (setObjective_good E _ _ _ (blank_good E))

theorem run_append (E : Env K) (solver : Args → SolverOut) (h h' : List (Call K)) :
    run E solver (h ++ h') = h'.foldl (fun s c => (call E solver s c).1) (run E solver h) := by simp [run, List.foldl_append]

theorem run_snoc (E : Env K) (solver : Args → SolverOut) (h : List (Call K)) (c : Call K) :
    run E solver (h ++ [c]) = (call E solver (run E solver h) c).1 := by simp [run]

theorem fold_induction (E : Env K) (solver : Args → SolverOut) (P : St → Prop) (Q : Call K → Prop)
    (hs : ∀ s c, Q c → P s → P (call E solver s c).1) (h : List (Call K)) (hq : ∀ c ∈ h, Q c) (s : St) (h0 : P s) :
    P (h.foldl (fun s c => (call E solver s c).1) s) := by
  induction h generalizing s with
  | nil => exact h0
  | cons c h ih => exact ih (fun c hc => hq c (by simp [hc])) _ (hs s c (hq c (by simp)) h0)

theorem run_good (E : Env K) (solver : Args → SolverOut) (h : List (Call K)) : Good (run E solver h) :=
  fold_induction E solver Good (fun _ => True) (fun s c _ => call_good E solver s c) h (fun _ _ => trivial) _ (init_good E)

/-- Induction over histories without exceptions. -/
theorem ok_induction (E : Env K) (solver : Args → SolverOut) (P : St → Prop) (Q : Call K → Prop) (h0 : P (init E))
    (hs : ∀ s c, Good s → Q c → (call E solver s c).2 = none → P s → P (call E solver s c).1) (h : List (Call K)) (hq : ∀ c ∈ h, Q c)
    (hok : Ok E solver h) : P (run E solver h) := by
  induction h using List.reverseRecOn with
  | nil => exact h0
  | append_singleton h c ih =>
    rw [run_snoc]
    refine hs _ c (run_good E solver h) (hq c (by simp)) (hok h c [] rfl) (ih (fun c hc => hq c (by simp [hc])) ?_)
    intro h1 c' h2 e
    exact hok h1 c' (h2 ++ [c]) (by rw [e]; simp)

end Verif.SdpState

import Verif.SdpState.Truth
/-!
Where the bounds of the semidefinite program come from: over all histories every recorded bound is the default one or one the user gave.
-/
namespace Verif.SdpEnd
open Verif.Common Verif.Moment Verif.State Verif.SdpState

variable {K : Type}

theorem sanitiseBounds_all (E : SdpState.Env K) (P : Mon → Rat → Prop) (l : List (K × Rat)) (d d' : Dict Mon Rat) (hl : ∀ t ∈ l, P (E.san t.1) t.2) (hd : ∀ m v, d.get m = some v → P m v)
    (hn : d.keys.Nodup) (hs : SdpState.sanitiseBounds E l d = some d') : d'.keys.Nodup ∧ ∀ m v, d'.get m = some v → P m v := by
  induction l generalizing d with
  | nil => simp only [SdpState.sanitiseBounds, Option.some.injEq] at hs; rw [← hs]; exact ⟨hn, hd⟩
  | cons t l ih =>
    obtain ⟨k, w⟩ := t
    unfold SdpState.sanitiseBounds at hs
    split at hs
    · refine ih _ (fun t ht => hl t (List.mem_cons_of_mem _ ht)) ?_ (nodup_set _ _ _ hn) hs
      intro m v hm
      rw [get_set] at hm
      split at hm
      · rename_i e
        have : w = v := by simpa using hm
        rw [← e, ← this]
        exact hl (k, w) (by simp)
      · exact hd m v hm
    · split at hs
      · exact ih _ (fun t ht => hl t (List.mem_cons_of_mem _ ht)) hd hn hs
      · simp at hs

/-- The bounds recorded in a state have given properties. -/
structure BoundsAre (PL PU : Mon → Rat → Prop) (s : SdpState.St) : Prop where
  lower : ∀ m x, s.lower.get m = some x → PL m x
  upper : ∀ m x, s.upper.get m = some x → PU m x

variable {PL PU : Mon → Rat → Prop}

theorem cleanup_bounds (E : SdpState.Env K) (hE : E.supports = false) (s : SdpState.St) (hg : SdpState.Good s) (h : BoundsAre PL PU s) : BoundsAre PL PU (SdpState.cleanup E s).1 := by
  have hss : supportsStep E s = s := by unfold supportsStep; rw [hE]; simp
  obtain ⟨lo, up, pr, se, q1, _, _, q4, q5, _⟩ := SdpState.cleanup_eq E s (by rw [hss]; exact hg)
  rw [hss] at q4
  rw [q1]
  exact ⟨fun m x hx => h.lower m x (q4 m x hx), fun m x hx => h.upper m x (q5 m x hx)⟩

theorem updateLower_bounds (s : SdpState.St) (hg : s.lower.keys.Nodup) (h : BoundsAre PL PU s) : BoundsAre PL PU (SdpState.updateLower s).1 := by
  obtain ⟨b, r, q1, _, q3, _⟩ := SdpState.updateLower_eq s hg
  rw [q1]
  exact ⟨fun m x hx => h.lower m x (q3 m x hx), h.upper⟩

theorem updateUpper_bounds (s : SdpState.St) (hg : s.upper.keys.Nodup) (h : BoundsAre PL PU s) : BoundsAre PL PU (SdpState.updateUpper s).1 := by
  obtain ⟨b, r, q1, _, q3, _⟩ := SdpState.updateUpper_eq s hg
  rw [q1]
  exact ⟨h.lower, fun m x hx => h.upper m x (q3 m x hx)⟩

theorem defaultLower_are (E : SdpState.Env K) (hd : ∀ m ∈ E.hermitian, PL m 0) : ∀ m x, (defaultLower E).get m = some x → PL m x := by
  intro m x hx
  rw [defaultLower_get] at hx
  split at hx
  · rename_i hm
    simp only [Option.some.injEq] at hx
    subst hx
    exact hd m hm
  · simp at hx

theorem resetLower_bounds (E : SdpState.Env K) (hd : ∀ m ∈ E.hermitian, PL m 0) (s : SdpState.St) (h : BoundsAre PL PU s) : BoundsAre PL PU (SdpState.resetLower E s).1 :=
  updateLower_bounds _ (defaultLower_nodup E) ⟨defaultLower_are E hd, h.upper⟩

theorem resetUpper_bounds (s : SdpState.St) (h : BoundsAre PL PU s) : BoundsAre PL PU (SdpState.resetUpper s).1 :=
  ⟨h.lower, fun m x hx => by simp [SdpState.resetUpper] at hx⟩

theorem updateValues_bounds (E : SdpState.Env K) (hE : E.supports = false) (v : List (K × Option Rat)) (lpi o : Bool) (s : SdpState.St) (hg : SdpState.Good s) (h : BoundsAre PL PU s) :
    BoundsAre PL PU (SdpState.updateValues E v lpi o s).1 := by
  unfold SdpState.updateValues
  split
  · exact h
  · exact cleanup_bounds E hE _ (pre_good E v lpi o s hg) ⟨h.lower, h.upper⟩

theorem setValues_bounds (E : SdpState.Env K) (hE : E.supports = false) (v : List (K × Option Rat)) (lpi o : Bool) (s : SdpState.St) (hg : SdpState.Good s) (h : BoundsAre PL PU s) :
    BoundsAre PL PU (SdpState.setValues E v lpi o s).1 := by
  have hg' := SdpState.resetValues_good E s hg
  have hb : BoundsAre PL PU (SdpState.resetValues E s) := ⟨h.lower, h.upper⟩
  unfold SdpState.setValues
  dsimp only
  split
  · exact cleanup_bounds E hE _ hg' hb
  · exact updateValues_bounds E hE v lpi o _ hg' hb

theorem setLower_bounds (E : SdpState.Env K) (hd : ∀ m ∈ E.hermitian, PL m 0) (l : List (K × Rat)) (hl : ∀ t ∈ l, PL (E.san t.1) t.2) (s : SdpState.St) (hg : SdpState.Good s) (h : BoundsAre PL PU s) :
    BoundsAre PL PU (SdpState.setLower E (some l) s).1 := by
  unfold SdpState.setLower
  dsimp only
  split
  · exact h
  · rename_i d hs
    obtain ⟨_, hd'⟩ := sanitiseBounds_all E PL l [] d hl (by intro m v hm; simp at hm) (by simp [Dict.keys]) hs
    have h1 := resetLower_bounds E hd s h
    have hg1 := SdpState.resetLower_good E s hg
    unfold SdpState.andThen
    split
    · have hnd : (d.foldl (fun b t => Dict.set b t.1 t.2) (SdpState.resetLower E s).1.lower).keys.Nodup := by
        have : ∀ (d b : Dict Mon Rat), b.keys.Nodup → (d.foldl (fun b t => Dict.set b t.1 t.2) b).keys.Nodup := by
          intro d
          induction d with
          | nil => intro b hb; exact hb
          | cons t d ih => intro b hb; exact ih _ (nodup_set _ _ _ hb)
        exact this d _ hg1.lower
      refine updateLower_bounds _ hnd ⟨?_, h1.upper⟩
      intro m x hx
      have key : ∀ (d b : Dict Mon Rat), (∀ t ∈ d, PL t.1 t.2) → (∀ m x, b.get m = some x → PL m x) → ∀ m x, (d.foldl (fun b t => Dict.set b t.1 t.2) b).get m = some x → PL m x := by
        intro d
        induction d with
        | nil => intro b _ hb; exact hb
        | cons t d ih =>
          intro b hd hb
          refine ih _ (fun u hu => hd u (List.mem_cons_of_mem _ hu)) ?_
          intro m x hx
          rw [get_set] at hx
          split at hx
          · rename_i e
            simp only [Option.some.injEq] at hx
            rw [← e, ← hx]
            exact hd t (by simp)
          · exact hb m x hx
      refine key d _ ?_ h1.lower m x hx
      intro t ht
      have hnd2 : d.keys.Nodup := (sanitiseBounds_all E (fun _ _ => True) l [] d (by simp) (by simp) (by simp [Dict.keys]) hs).1
      exact hd' t.1 t.2 ((get_of_mem d hnd2 t.1 t.2).1 ht)
    · exact h1

theorem setUpper_bounds (E : SdpState.Env K) (l : List (K × Rat)) (hl : ∀ t ∈ l, PU (E.san t.1) t.2) (s : SdpState.St) (h : BoundsAre PL PU s) :
    BoundsAre PL PU (SdpState.setUpper E (some l) s).1 := by
  unfold SdpState.setUpper
  dsimp only
  split
  · exact h
  · rename_i d hs
    obtain ⟨hn, hd'⟩ := sanitiseBounds_all E PU l [] d hl (by intro m v hm; simp at hm) (by simp [Dict.keys]) hs
    unfold SdpState.andThen
    split
    · exact updateUpper_bounds _ hn ⟨h.lower, hd'⟩
    · exact resetUpper_bounds s h

theorem andThen_bounds (r : SdpState.Out) (f : SdpState.St → SdpState.Out) (h : BoundsAre PL PU r.1) (hf : ∀ s, BoundsAre PL PU s → BoundsAre PL PU (f s).1) : BoundsAre PL PU (SdpState.andThen r f).1 := by
  unfold SdpState.andThen
  split
  · exact hf _ h
  · exact h

theorem call_bounds (E : SdpState.Env K) (hE : E.supports = false) (solver : SdpState.Args → SdpState.SolverOut) (hd : ∀ m ∈ E.hermitian, PL m 0) (s : SdpState.St) (c : SdpState.Call K)
    (hl : ∀ l, c = .setLower (some l) → ∀ t ∈ l, PL (E.san t.1) t.2) (hu : ∀ l, c = .setUpper (some l) → ∀ t ∈ l, PU (E.san t.1) t.2)
    (hg : SdpState.Good s) (h : BoundsAre PL PU s) : BoundsAre PL PU (SdpState.call E solver s c).1 := by
  cases c with
  | setValues v lpi o => exact setValues_bounds E hE v lpi o s hg h
  | updateValues v lpi o => exact updateValues_bounds E hE v lpi o s hg h
  | setObjective o m =>
    show BoundsAre PL PU (SdpState.setObjective E o m s).1
    unfold SdpState.setObjective
    split
    · exact h
    · cases o with
      | none => exact ⟨h.lower, h.upper⟩
      | some d =>
        dsimp only
        split
        · exact ⟨h.lower, h.upper⟩
        · exact ⟨h.lower, h.upper⟩
  | setLower b =>
    cases b with
    | none => exact h
    | some l => exact setLower_bounds E hd l (hl l rfl) s hg h
  | setUpper b =>
    cases b with
    | none => exact h
    | some l => exact setUpper_bounds E l (hu l rfl) s h
  | setExtraEq l => exact ⟨h.lower, h.upper⟩
  | setExtraIneq l => exact ⟨h.lower, h.upper⟩
  | reset w =>
    cases w with
    | all =>
      exact andThen_bounds _ _ (andThen_bounds _ _ (resetLower_bounds E hd _ ⟨h.lower, h.upper⟩) fun s hs => resetUpper_bounds s hs) fun s hs => ⟨hs.lower, hs.upper⟩
    | bounds => exact andThen_bounds _ _ (resetLower_bounds E hd _ h) fun s hs => resetUpper_bounds s hs
    | lowerbounds => exact resetLower_bounds E hd _ h
    | upperbounds => exact resetUpper_bounds _ h
    | objective => exact ⟨h.lower, h.upper⟩
    | values => exact ⟨h.lower, h.upper⟩
  | solve =>
    show BoundsAre PL PU (SdpState.solve E solver s).1
    unfold SdpState.solve
    split
    · exact h
    · exact ⟨h.lower, h.upper⟩

/-- Over all histories, every recorded lower bound is the default bound of a hermitian moment or given by the user, and every recorded upper bound is given by the user. -/
theorem run_bounds (E : SdpState.Env K) (hE : E.supports = false) (solver : SdpState.Args → SdpState.SolverOut) (hd : ∀ m ∈ E.hermitian, PL m 0) (h : List (SdpState.Call K))
    (hl : ∀ c ∈ h, ∀ l, c = .setLower (some l) → ∀ t ∈ l, PL (E.san t.1) t.2) (hu : ∀ c ∈ h, ∀ l, c = .setUpper (some l) → ∀ t ∈ l, PU (E.san t.1) t.2) :
    BoundsAre PL PU (SdpState.run E solver h) := by
  have key := SdpState.fold_induction E solver (fun s => SdpState.Good s ∧ BoundsAre PL PU s)
    (fun c => (∀ l, c = .setLower (some l) → ∀ t ∈ l, PL (E.san t.1) t.2) ∧ (∀ l, c = .setUpper (some l) → ∀ t ∈ l, PU (E.san t.1) t.2)) ?_ h (fun c hc => ⟨hl c hc, hu c hc⟩) (SdpState.init E) ?_
  · exact key.2
  · rintro s c ⟨q1, q2⟩ ⟨hg, hs⟩
    exact ⟨SdpState.call_good E solver s c hg, call_bounds E hE solver hd s c q1 q2 hg hs⟩
  · refine ⟨SdpState.init_good E, setValues_bounds E hE [] false false _ (SdpState.setObjective_good E none true _ (blank_good E)) ?_⟩
    have hb : BoundsAre PL PU (blank E) := ⟨defaultLower_are E hd, by intro m x hx; simp [blank] at hx⟩
    unfold SdpState.setObjective
    split
    · exact hb
    · exact ⟨hb.lower, hb.upper⟩

end Verif.SdpEnd

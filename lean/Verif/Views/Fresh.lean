import Verif.Views.Props
/-
**C62**, continued: when the stored views are up to date; the variants with bounds absorbed into the inequalities.
-/
namespace Verif.Views
open Verif.Common Verif.Moment Verif.State Verif.Writers

variable {K : Type}

/-- Calls that read the stored by-name views (`write_to_file` prepares the arguments with separate bounds). -/
def readsViews : Call K → Bool
  | .readEqByName => true
  | .readIneqByName => true
  | .prepareArguments _ => true
  | _ => false

/-- Calls that leave the extra constraints, and the contents of the stored lists, as they are. -/
def keepsConstraints : Call K → Bool
  | .setValues _ _ _ => false
  | .setExtraEq _ => false
  | .setExtraIneq _ => false
  | .reset .values => false
  | .reset .all => false
  | .prepareArguments b => b
  | _ => true

theorem fresh_congr {E : Env K} {s s' : LpState} (h : FreshViews E s) (h1 : s'.extraEq = s.extraEq) (h2 : s'.extraIneq = s.extraIneq) (h3 : s'.cachedEq = s.cachedEq)
    (h4 : s'.cachedIneq = s.cachedIneq) : FreshViews E s' := by
  unfold FreshViews sparseEq sparseIneq at *
  rw [h1, h2, h3, h4]
  exact h

theorem cleanup_views (E : Env K) (s : LpState) : (cleanup E s).extraEq = s.extraEq ∧ (cleanup E s).extraIneq = s.extraIneq ∧ (cleanup E s).cachedEq = s.cachedEq ∧
    (cleanup E s).cachedIneq = s.cachedIneq := by
  unfold cleanup
  split <;> exact ⟨rfl, rfl, rfl, rfl⟩

theorem update_views (E : Env K) (v : List (K × Option Rat)) (lpi o : Bool) (s : LpState) :
    (updateValues E v lpi o s).extraEq = s.extraEq ∧ (updateValues E v lpi o s).extraIneq = s.extraIneq ∧ (updateValues E v lpi o s).cachedEq = s.cachedEq ∧
      (updateValues E v lpi o s).cachedIneq = s.cachedIneq := by
  unfold updateValues
  split
  · exact ⟨rfl, rfl, rfl, rfl⟩
  · dsimp only
    split
    · exact cleanup_views E _
    · exact cleanup_views E _

theorem setLower_views (E : Env K) (b : Option (List (K × Rat))) (s : LpState) :
    (setLower E b s).extraEq = s.extraEq ∧ (setLower E b s).extraIneq = s.extraIneq ∧ (setLower E b s).cachedEq = s.cachedEq ∧ (setLower E b s).cachedIneq = s.cachedIneq := by
  unfold setLower
  split
  · exact ⟨rfl, rfl, rfl, rfl⟩
  · split <;> exact ⟨rfl, rfl, rfl, rfl⟩

theorem setUpper_views (E : Env K) (b : Option (List (K × Rat))) (s : LpState) :
    (setUpper E b s).extraEq = s.extraEq ∧ (setUpper E b s).extraIneq = s.extraIneq ∧ (setUpper E b s).cachedEq = s.cachedEq ∧ (setUpper E b s).cachedIneq = s.cachedIneq := by
  unfold setUpper
  split
  · exact ⟨rfl, rfl, rfl, rfl⟩
  · split <;> exact ⟨rfl, rfl, rfl, rfl⟩

theorem setObjective_views (E : Env K) (o : Option (List (K × Rat))) (m : Bool) (s : LpState) :
    (setObjective E o m s).extraEq = s.extraEq ∧ (setObjective E o m s).extraIneq = s.extraIneq ∧ (setObjective E o m s).cachedEq = s.cachedEq ∧
      (setObjective E o m s).cachedIneq = s.cachedIneq := by
  cases o <;> exact ⟨rfl, rfl, rfl, rfl⟩

theorem eqByName_keeps {E : Env K} {s : LpState} (h : FreshViews E s) : FreshViews E (eqByName E s).2 := by
  unfold eqByName
  split
  · exact h
  · split
    · exact h
    · rename_i rows hr
      refine ⟨fun c hc => ?_, h.2⟩
      rw [← hc]
      show (sparseEq E s).map _ = _
      rw [hr]
      rfl

theorem ineqByName_keeps {E : Env K} {s : LpState} (h : FreshViews E s) : FreshViews E (ineqByName E s).2 := by
  unfold ineqByName
  split
  · exact h
  · split
    · exact h
    · rename_i rows hr
      refine ⟨h.1, fun c hc => ?_⟩
      rw [← hc]
      show (sparseIneq E s).map _ = _
      rw [hr]
      rfl

theorem step_fresh (E : Env K) (solver : Args → SolverOut) (s : LpState) (c : Call K) (hc : keepsConstraints c = true) (h : FreshViews E s) : FreshViews E (step E solver s c) := by
  cases c with
  | setValues v lpi o => cases hc
  | updateValues v lpi o =>
    obtain ⟨h1, h2, h3, h4⟩ := update_views E v lpi o s
    exact fresh_congr h h1 h2 h3 h4
  | setObjective o m =>
    obtain ⟨h1, h2, h3, h4⟩ := setObjective_views E o m s
    exact fresh_congr h h1 h2 h3 h4
  | setLower b =>
    obtain ⟨h1, h2, h3, h4⟩ := setLower_views E b s
    exact fresh_congr h h1 h2 h3 h4
  | setUpper b =>
    obtain ⟨h1, h2, h3, h4⟩ := setUpper_views E b s
    exact fresh_congr h h1 h2 h3 h4
  | setExtraEq l => cases hc
  | setExtraIneq l => cases hc
  | reset w =>
    cases w with
    | values => cases hc
    | all => cases hc
    | bounds => exact fresh_congr h rfl rfl rfl rfl
    | lowerbounds => exact fresh_congr h rfl rfl rfl rfl
    | upperbounds => exact fresh_congr h rfl rfl rfl rfl
    | objective => exact fresh_congr h rfl rfl rfl rfl
  | solve =>
    show FreshViews E (solve E solver s)
    unfold solve
    split
    · exact h
    · exact fresh_congr h rfl rfl rfl rfl
  | readEqByName => exact eqByName_keeps h
  | readIneqByName => exact ineqByName_keeps h
  | prepareArguments b =>
    cases hc
    show FreshViews E (argsByName E true s).2.2
    unfold argsByName
    exact ineqByName_keeps (eqByName_keeps h)

theorem step_uncached (E : Env K) (solver : Args → SolverOut) (s : LpState) (c : Call K) (hc : readsViews c = false) (h : s.cachedEq = none ∧ s.cachedIneq = none) :
    (step E solver s c).cachedEq = none ∧ (step E solver s c).cachedIneq = none := by
  obtain ⟨g1, g2⟩ := h
  cases c with
  | setValues v lpi o =>
    show (setValues E v lpi o s).cachedEq = none ∧ (setValues E v lpi o s).cachedIneq = none
    unfold setValues
    dsimp only
    split
    · obtain ⟨-, -, h3, h4⟩ := cleanup_views E (resetValues s)
      exact ⟨h3.trans g1, h4.trans g2⟩
    · obtain ⟨-, -, h3, h4⟩ := update_views E v lpi o (resetValues s)
      exact ⟨h3.trans g1, h4.trans g2⟩
  | updateValues v lpi o =>
    obtain ⟨-, -, h3, h4⟩ := update_views E v lpi o s
    exact ⟨h3.trans g1, h4.trans g2⟩
  | setObjective o m =>
    obtain ⟨-, -, h3, h4⟩ := setObjective_views E o m s
    exact ⟨h3.trans g1, h4.trans g2⟩
  | setLower b =>
    obtain ⟨-, -, h3, h4⟩ := setLower_views E b s
    exact ⟨h3.trans g1, h4.trans g2⟩
  | setUpper b =>
    obtain ⟨-, -, h3, h4⟩ := setUpper_views E b s
    exact ⟨h3.trans g1, h4.trans g2⟩
  | setExtraEq l => exact ⟨g1, g2⟩
  | setExtraIneq l => exact ⟨g1, g2⟩
  | reset w => cases w <;> exact ⟨g1, g2⟩
  | solve =>
    show (solve E solver s).cachedEq = none ∧ (solve E solver s).cachedIneq = none
    unfold solve
    split <;> exact ⟨g1, g2⟩
  | readEqByName => cases hc
  | readIneqByName => cases hc
  | prepareArguments b => cases hc

theorem init_uncached (E : Env K) : (init E).cachedEq = none ∧ (init E).cachedIneq = none := by
  unfold init setValues
  dsimp only [List.isEmpty_nil, if_true]
  obtain ⟨-, -, h3, h4⟩ := cleanup_views E (resetValues (setObjective E none true (setUpper E none (setLower E none ⟨[], [], [], [], [], true, [], [], false, .notSolved, none, none⟩))))
  exact ⟨h3, h4⟩

/-- **C62 (when the stored views are up to date).** After any calls that read no stored view, followed by any calls, including reads and exports, that do not change the extra constraints. -/
theorem C62_views_up_to_date (E : Env K) (solver : Args → SolverOut) (h h' : List (Call K)) (hr : ∀ c ∈ h, readsViews c = false) (hk : ∀ c ∈ h', keepsConstraints c = true) :
    FreshViews E (run E solver (h ++ h')) := by
  rw [run_append]
  refine fold_induction E solver (FreshViews E) (fun c => keepsConstraints c = true) (fun s c hc hs => step_fresh E solver s c hc hs) h' hk _ ?_
  have : (run E solver h).cachedEq = none ∧ (run E solver h).cachedIneq = none :=
    fold_induction E solver (fun s => s.cachedEq = none ∧ s.cachedIneq = none) (fun c => readsViews c = false) (fun s c hc hs => step_uncached E solver s c hc hs) h hr _ (init_uncached E)
  refine ⟨fun c hc => ?_, fun c hc => ?_⟩
  · rw [this.1] at hc; cases hc
  · rw [this.2] at hc; cases hc

/-- The equalities, the inequalities and the new state are those of the model of the history of calls. -/
theorem prepare_agrees (E : Env K) (separate : Bool) (s : LpState) {A : WArgs String Rat} {s' : LpState} (h : prepareByName E separate s = (some A, s')) :
    argsByName E separate s = (some A.equalities, some A.inequalities, s') := by
  unfold prepareByName at h
  split at h
  · split at h
    · split at h
      · cases h
      · rename_i e s1 he
        split at h
        · cases h
        · rename_i i s2 hi
          unfold argsByName
          simp only [he, hi]
          cases separate with
          | true =>
            simp only [if_true] at h ⊢
            split at h
            · cases h
              rfl
            · cases h
          | false =>
            simp only [Bool.false_eq_true, if_false] at h ⊢
            cases h
            rfl
    · cases h
  · cases h

/-! ### Bounds absorbed into the inequalities -/

theorem expand_forall (sign : Rat) (v : Dict Nat Rat) (x : Nat → Rat) (hx : x 0 = 1) : (∀ r ∈ expandBounds sign v, 0 ≤ dictVal r x) ↔ ∀ t ∈ v, sign * t.2 ≤ sign * x t.1 := by
  unfold expandBounds
  rw [forall_map_iff]
  refine forall₂_congr fun t _ => ?_
  simp only [dictVal, List.map_cons, List.map_nil, List.sum_cons, List.sum_nil, hx]
  constructor <;> intro h <;> linarith

/-- **C62 (absorbed bounds, matrices).** With the bounds absorbed into the inequalities, the matrices have the same solutions among the points giving 1 to the first variable, the unit. -/
theorem C62_absorbed_bounds (E : Env K) (s : LpState) {a b : Args} (ha : solverArgs E s = some a) (hb : mergedArgs E s = some b) (x : Nat → Rat) (hx : x 0 = 1) :
    b.Feasible x ↔ a.Feasible x := by
  unfold mergedArgs at hb
  rw [ha] at hb
  have hb := Option.some.inj hb
  subst hb
  have k1 := expand_forall 1 a.lower x hx
  have k2 := expand_forall (-1) a.upper x hx
  constructor
  · rintro ⟨h1, h2, h3, -, -⟩
    refine ⟨h1, h2, fun r hr => h3 r (by simp [hr]), fun t ht => ?_, fun t ht => ?_⟩
    · have := k1.1 (fun r hr => h3 r (by simp [hr])) t ht
      linarith
    · have := k2.1 (fun r hr => h3 r (by simp [hr])) t ht
      linarith
  · rintro ⟨h1, h2, h3, h4, h5⟩
    refine ⟨h1, h2, fun r hr => ?_, fun t ht => by simp at ht, fun t ht => by simp at ht⟩
    rcases List.mem_append.1 hr with hr | hr
    · rcases List.mem_append.1 hr with hr | hr
      · exact h3 r hr
      · exact k1.2 (fun t ht => by linarith [h4 t ht]) r hr
    · exact k2.2 (fun t ht => by linarith [h5 t ht]) r hr

end Verif.Views

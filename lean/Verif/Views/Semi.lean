import Verif.Views.Rows
import Verif.Distinct.Ready
/-
A moment recorded as proportional to another one has more factors than it: no moment is recorded as proportional to itself.
-/
namespace Verif.Views
open Verif.Common Verif.Moment Verif.State Verif.Writers Verif.Distinct

variable {K : Type}

def SemiShort (s : LpState) : Prop := ∀ t ∈ s.semi, t.2.2.length < t.1.length

theorem evaluate_semi_short (A : AtomInfo) (m : Mon) (known : Atom → Option Rat) (lpi : Bool) (h : (evaluate (compound A m) known lpi).2.2 = .semi) :
    (evaluate (compound A m) known lpi).2.1.length < m.length := by
  have h1 := (evaluate_subperm A m known lpi).length_le
  refine lt_of_le_of_ne h1 ?_
  intro e
  have hf : (compound A m).factors.length = m.length := (sortBy_perm atomLe m).length_eq
  unfold evaluate at h e
  dsimp only at h e
  rw [hf, e] at h
  by_cases h0 : m.length = 0
  · simp [h0] at h
  · simp [h0] at h

theorem short_eval (E : Env K) (at' : Dict Atom Rat) (lpi : Bool) (ms : List Mon) (st : Dict Mon Rat × Dict Mon (Rat × Mon))
    (h : ∀ t ∈ st.2, t.2.2.length < t.1.length) : ∀ t ∈ (ms.foldl (evalMon E at' lpi) st).2, t.2.2.length < t.1.length := by
  induction ms generalizing st with
  | nil => exact h
  | cons m ms ih =>
    rw [List.foldl_cons]
    apply ih
    unfold evalMon
    dsimp only
    split
    · exact h
    · rename_i hs
      split
      · intro t ht
        rcases mem_set_cases _ _ _ t ht with rfl | ht
        · have := evaluate_semi_short E.info m at'.get lpi hs
          simpa [(sortBy_perm atomLe _).length_eq] using this
        · exact h t ht
      · exact h
    · exact h

theorem short_filter {s s' : LpState} (h : SemiShort s) (hs : s'.semi = [] ∨ ∃ p, s'.semi = s.semi.filter p) : SemiShort s' := by
  rcases hs with e | ⟨p, e⟩
  · intro t ht
    rw [e] at ht
    simp at ht
  · intro t ht
    rw [e] at ht
    exact h t (List.mem_filter.1 ht).1

theorem short_same {s s' : LpState} (h : SemiShort s) (hs : s'.semi = s.semi) : SemiShort s' := by
  intro t ht
  rw [hs] at ht
  exact h t ht

theorem cleanup_short (E : Env K) {s : LpState} (h : SemiShort s) : SemiShort (cleanup E s) := by
  refine short_filter h ?_
  unfold cleanup
  split
  · exact .inl rfl
  · exact .inr ⟨_, rfl⟩

theorem update_short (E : Env K) (v : List (K × Option Rat)) (lpi o : Bool) {s : LpState} (h : SemiShort s) : SemiShort (updateValues E v lpi o s) := by
  unfold updateValues
  split
  · exact h
  · dsimp only
    split
    · exact cleanup_short E h
    · exact cleanup_short E (short_eval E _ lpi _ _ h)

theorem setValues_short (E : Env K) (v : List (K × Option Rat)) (lpi o : Bool) (s : LpState) : SemiShort (setValues E v lpi o s) := by
  have h0 : SemiShort (resetValues s) := by intro t ht; simp [resetValues] at ht
  unfold setValues
  dsimp only
  split
  · exact cleanup_short E h0
  · exact update_short E _ _ _ h0

theorem step_short (E : Env K) (solver : Args → SolverOut) (s : LpState) (c : Call K) (h : SemiShort s) : SemiShort (step E solver s c) := by
  cases c with
  | setValues v lpi o => exact setValues_short E v lpi o s
  | updateValues v lpi o => exact update_short E v lpi o h
  | setObjective o m =>
    refine short_same h ?_
    cases o <;> rfl
  | setLower b =>
    refine short_same h ?_
    show (setLower E b s).semi = s.semi
    unfold setLower
    split
    · rfl
    · split <;> rfl
  | setUpper b =>
    refine short_same h ?_
    show (setUpper E b s).semi = s.semi
    unfold setUpper
    split
    · rfl
    · split <;> rfl
  | setExtraEq l => exact h
  | setExtraIneq l => exact h
  | reset w =>
    cases w with
    | values => intro t ht; simp [step, reset, resetValues] at ht
    | all => intro t ht; simp [step, reset, resetValues] at ht
    | bounds => exact h
    | lowerbounds => exact h
    | upperbounds => exact h
    | objective => exact h
  | solve =>
    refine short_same h ?_
    show (solve E solver s).semi = s.semi
    unfold solve
    split <;> rfl
  | readEqByName =>
    obtain ⟨c, hc⟩ := eqByName_fst E s
    exact short_same h (by show (eqByName E s).2.semi = _; rw [hc])
  | readIneqByName =>
    obtain ⟨c, hc⟩ := ineqByName_fst E s
    exact short_same h (by show (ineqByName E s).2.semi = _; rw [hc])
  | prepareArguments b =>
    obtain ⟨c, c', hc⟩ := argsByName_fst E b s
    exact short_same h (by show (argsByName E b s).2.2.semi = _; rw [hc])

theorem run_short (E : Env K) (solver : Args → SolverOut) (h : List (Call K)) : SemiShort (run E solver h) :=
  run_induction E solver SemiShort (setValues_short E _ _ _ _) (step_short E solver) h

end Verif.Views

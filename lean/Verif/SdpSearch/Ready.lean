import Verif.SdpSearch.Props
/-
When a program is ready for `max_within_feasible`: after any history of calls that sets no objective, exceptions included.
-/
namespace Verif.SdpSearch
open Verif.Common Verif.Moment
open Verif.State (Dict Mon)
open Verif.SdpState hiding Truthful
open Verif.SdpEnd
open Verif.EndToEnd (Input)

variable {K : Type}

theorem bare_andThen {r : Out} {f : St → Out} (h1 : Bare r.1) (h2 : ∀ s, Bare s → Bare (f s).1) : Bare (andThen r f).1 := by
  unfold andThen
  split
  · exact h2 _ h1
  · exact h1

theorem bare_reset_solution {s : St} (h : Bare s) : Bare (resetSolution s) := ⟨h.objective, h.processed, h.maximize⟩

theorem bare_updateLower (s : St) (h : Bare s) : Bare (updateLower s).1 := by
  unfold updateLower
  split <;> exact ⟨h.objective, h.processed, h.maximize⟩

theorem bare_updateUpper (s : St) (h : Bare s) : Bare (updateUpper s).1 := by
  unfold updateUpper
  split <;> exact ⟨h.objective, h.processed, h.maximize⟩

theorem bare_updateObjective (s : St) (h : Bare s) : Bare (updateObjective s).1 := by
  refine ⟨h.objective, ?_, h.maximize⟩
  show processKnown s.known s.objective = _
  rw [h.objective]
  rfl

theorem bare_cleanup_any (E : Env K) (s : St) (h : Bare s) : Bare (cleanup E s).1 := by
  unfold cleanup
  have hss : Bare (supportsStep E s) := by
    unfold supportsStep
    split
    · exact ⟨h.objective, h.processed, h.maximize⟩
    · exact h
  exact bare_andThen (bare_andThen (bare_andThen (bare_updateLower _ hss) bare_updateUpper) bare_updateObjective) fun s h => ⟨h.objective, h.processed, h.maximize⟩

theorem bare_resetLower (E : Env K) (s : St) (h : Bare s) : Bare (resetLower E s).1 := bare_updateLower _ ⟨h.objective, h.processed, h.maximize⟩

theorem bare_resetUpper (s : St) (h : Bare s) : Bare (resetUpper s).1 := ⟨h.objective, h.processed, h.maximize⟩

theorem bare_updateValues (E : Env K) (v : List (K × Option Rat)) (lpi o : Bool) (s : St) (h : Bare s) : Bare (updateValues E v lpi o s).1 := by
  unfold updateValues
  split
  · exact h
  · exact bare_cleanup_any E _ ⟨h.objective, h.processed, h.maximize⟩

theorem bare_setValues_any (E : Env K) (v : List (K × Option Rat)) (lpi o : Bool) (s : St) (h : Bare s) : Bare (setValues E v lpi o s).1 := by
  unfold setValues
  have hr : Bare (resetValues E s) := ⟨h.objective, h.processed, h.maximize⟩
  dsimp only
  split
  · exact bare_cleanup_any E _ hr
  · exact bare_updateValues E v lpi o _ hr

/-- The calls that leave a program without objective, with the direction of a maximisation. -/
def leavesBare : Call K → Bool
  | .setObjective (some _) _ => false
  | .setObjective none m => m
  | _ => true

theorem bare_call (E : Env K) (solver : Args → SolverOut) (s : St) (c : Call K) (hc : leavesBare c = true) (h : Bare s) : Bare (call E solver s c).1 := by
  cases c with
  | setValues v lpi o => exact bare_setValues_any E v lpi o s h
  | updateValues v lpi o => exact bare_updateValues E v lpi o s h
  | setObjective o m =>
    cases o with
    | some d => cases hc
    | none =>
      obtain rfl : m = true := hc
      show Bare (setObjective E none true s).1
      unfold setObjective
      simp only [Option.isSome_none, Bool.and_false, Bool.false_eq_true, if_false]
      exact ⟨rfl, rfl, rfl⟩
  | setLower b =>
    show Bare (setLower E b s).1
    unfold setLower
    split
    · exact h
    · split
      · exact h
      · exact bare_andThen (bare_resetLower E s h) fun s h => bare_updateLower _ ⟨h.objective, h.processed, h.maximize⟩
  | setUpper b =>
    show Bare (setUpper E b s).1
    unfold setUpper
    split
    · exact h
    · split
      · exact h
      · exact bare_andThen (bare_resetUpper s h) fun s h => bare_updateUpper _ ⟨h.objective, h.processed, h.maximize⟩
  | setExtraEq l => exact ⟨h.objective, h.processed, h.maximize⟩
  | setExtraIneq l => exact ⟨h.objective, h.processed, h.maximize⟩
  | reset w =>
    show Bare (reset E w s).1
    cases w with
    | all => exact bare_andThen (bare_andThen (bare_resetLower E _ ⟨h.objective, h.processed, h.maximize⟩) bare_resetUpper) fun s _ => ⟨rfl, rfl, rfl⟩
    | bounds => exact bare_andThen (bare_resetLower E _ h) bare_resetUpper
    | lowerbounds => exact bare_resetLower E s h
    | upperbounds => exact bare_resetUpper s h
    | objective => exact ⟨rfl, rfl, rfl⟩
    | values => exact ⟨h.objective, h.processed, h.maximize⟩
  | solve => exact bare_solve E solver h

theorem bare_init (E : Env K) : Bare (init E) := by
  refine bare_setValues_any E [] false false _ ?_
  unfold setObjective
  simp only [Option.isSome_none, Bool.and_false, Bool.false_eq_true, if_false]
  exact ⟨rfl, rfl, rfl⟩

/-- **C66, when a program is ready.** After any history of calls none of which sets an objective or asks for a minimisation, whether they raised or not, no objective is set. -/
theorem C66_no_objective_is_bare (E : Env K) (solver : Args → SolverOut) (h : List (Call K)) (hh : ∀ c ∈ h, leavesBare c = true) : Bare (run E solver h) :=
  fold_induction E solver Bare (fun c => leavesBare c = true) (fun s c hc hs => bare_call E solver s c hc hs) h hh (init E) (bare_init E)

/-- A new program is ready. -/
theorem ready_nil (B : Built) (solver : Args → SolverOut) : Ready B solver [] where
  ok := fun h1 c h2 e => by simp at e
  noLpi := fun c hc => by cases hc
  bare := bare_init B.env

/-- A program used without exceptions, without linearised constraints and without objective is ready. -/
theorem ready_of {B : Built} {solver : Args → SolverOut} {h : List (Call Mon)} (hok : Ok B.env solver h) (hl : NoLpi h) (hh : ∀ c ∈ h, leavesBare c = true) : Ready B solver h :=
  ⟨hok, hl, C66_no_objective_is_bare B.env solver h hh⟩

end Verif.SdpSearch

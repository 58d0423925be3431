import Verif.SdpEnd.Truth
import Verif.SdpState.Objective
import Mathlib.LinearAlgebra.Dual.Lemmas
import Mathlib.Algebra.Algebra.Rat
/-!
Further invariants of the state of `InflationSDP`: the processed objective is a dictionary, it is faithful at real points too, and without linearised constraints there are no semi-known moments.
-/
namespace Verif.SdpEnd
open Verif.Common Verif.Moment
open Verif.SdpState hiding Truthful
open Verif.State (Dict Mon dictVal nodup_set)

variable {K : Type}

/-- Both objectives are dictionaries. -/
structure ObjNodup (s : SdpState.St) : Prop where
  objective : s.objective.keys.Nodup
  processed : s.processed.keys.Nodup

theorem processKnown_nodup (known obj : Dict Mon Rat) (h : obj.keys.Nodup) : (processKnown known obj).keys.Nodup := by
  unfold processKnown
  generalize (obj.filter fun t => !(decide (t.1 = one)) && (known.get t.1).isSome) = l
  have : ∀ (l : Dict Mon Rat) (p : Dict Mon Rat), p.keys.Nodup →
      (l.foldl (fun p t => (p.set one ((p.get one).getD 0 + t.2 * (known.get t.1).getD 0)).erase t.1) p).keys.Nodup := by
    intro l
    induction l with
    | nil => intro p hp; exact hp
    | cons t l ih => intro p hp; exact ih _ (SdpState.nodup_erase _ _ (nodup_set _ _ _ hp))
  exact this l obj h

theorem objNodup_andThen (r : Out) (f : SdpState.St → Out) (h : ObjNodup r.1) (hf : ∀ s : SdpState.St, ObjNodup s → ObjNodup (f s).1) : ObjNodup (andThen r f).1 := by
  unfold andThen
  split
  · exact hf _ h
  · exact h

theorem objNodup_updateObjective (s : SdpState.St) (h : s.objective.keys.Nodup) : ObjNodup (updateObjective s).1 := ⟨h, processKnown_nodup _ _ h⟩

theorem objNodup_cleanup (E : SdpState.Env K) (s : SdpState.St) (h : ObjNodup s) : ObjNodup (cleanup E s).1 := by
  unfold cleanup
  have h0 : ObjNodup (supportsStep E s) := by
    unfold supportsStep
    split
    · exact ⟨h.objective, h.processed⟩
    · exact h
  refine objNodup_andThen _ _ (objNodup_andThen _ _ (objNodup_andThen _ _ ?_ ?_) ?_) ?_
  · unfold SdpState.updateLower; split <;> exact ⟨h0.objective, h0.processed⟩
  · intro s hs; unfold SdpState.updateUpper; split <;> exact ⟨hs.objective, hs.processed⟩
  · intro s hs; exact objNodup_updateObjective s hs.objective
  · intro s hs; exact ⟨hs.objective, hs.processed⟩

theorem objNodup_setValues (E : SdpState.Env K) (v : List (K × Option Rat)) (lpi o : Bool) (s : SdpState.St) (h : ObjNodup s) : ObjNodup (SdpState.setValues E v lpi o s).1 := by
  obtain ⟨b, e⟩ := SdpState.setValues_eq E v lpi o s
  rw [e]
  exact objNodup_cleanup E _ ⟨h.objective, h.processed⟩

theorem objNodup_setObjective (E : SdpState.Env K) (obj : Option (List (K × Rat))) (m : Bool) (s : SdpState.St) (hg : SdpState.Good s) (h : ObjNodup s) :
    ObjNodup (SdpState.setObjective E obj m s).1 := by
  have hgood := (SdpState.setObjective_good E obj m s hg).objective
  unfold SdpState.setObjective at hgood ⊢
  split
  · exact h
  · rename_i hne
    rw [if_neg hne] at hgood
    have h0 : (Dict.keys ([(one, 0)] : Dict Mon Rat)).Nodup := by simp [State.Dict.keys]
    rcases obj with _ | d
    · exact ⟨h0, h0⟩
    · dsimp only at hgood ⊢
      split
      · rename_i h1
        rw [if_pos h1] at hgood
        exact objNodup_updateObjective _ hgood
      · rename_i h1
        rw [if_neg h1] at hgood
        exact ⟨hgood, h0⟩

theorem run_objNodup (E : SdpState.Env K) (solver : Args → SolverOut) (h : List (SdpState.Call K)) : ObjNodup (SdpState.run E solver h) := by
  have key := SdpState.fold_induction E solver (fun s => SdpState.Good s ∧ ObjNodup s) (fun _ => True) (by
    intro s c _ hs
    refine ⟨SdpState.call_good E solver s c hs.1, ?_⟩
    have hother : (call E solver s c).1.objective = s.objective → (call E solver s c).1.processed = s.processed → ObjNodup (call E solver s c).1 := by
      intro h1 h2
      exact ⟨by rw [h1]; exact hs.2.objective, by rw [h2]; exact hs.2.processed⟩
    have hO := SdpState.other_calls E solver s c
    have h0 : (Dict.keys ([(one, 0)] : Dict Mon Rat)).Nodup := by simp [State.Dict.keys]
    cases c with
    | setValues v lpi o => exact objNodup_setValues E v lpi o s hs.2
    | updateValues v lpi o =>
      show ObjNodup (SdpState.updateValues E v lpi o s).1
      unfold SdpState.updateValues
      split
      · exact hs.2
      · exact objNodup_cleanup E _ ⟨hs.2.objective, hs.2.processed⟩
    | setObjective o m => exact objNodup_setObjective E o m s hs.1 hs.2
    | setLower b => have := hO (.inl ⟨b, rfl⟩); exact hother this.2.1 this.2.2.1
    | setUpper b => have := hO (.inr (.inl ⟨b, rfl⟩)); exact hother this.2.1 this.2.2.1
    | setExtraEq l => exact ⟨hs.2.objective, hs.2.processed⟩
    | setExtraIneq l => exact ⟨hs.2.objective, hs.2.processed⟩
    | solve => have := hO (.inr (.inr (.inr (.inr (.inl rfl))))); exact hother this.2.1 this.2.2.1
    | reset w =>
      cases w with
      | all =>
        show ObjNodup (andThen (andThen (SdpState.resetLower E (SdpState.resetValues E s)) SdpState.resetUpper) fun s => (SdpState.resetObjective s, none)).1
        refine objNodup_andThen _ _ (objNodup_andThen _ _ ?_ ?_) ?_
        · unfold SdpState.resetLower SdpState.updateLower
          split <;> exact ⟨hs.2.objective, hs.2.processed⟩
        · intro s hs; exact ⟨hs.objective, hs.processed⟩
        · intro s _; exact ⟨h0, h0⟩
      | bounds => have := hO (.inr (.inr (.inr (.inr (.inr (.inl rfl)))))); exact hother this.2.1 this.2.2.1
      | lowerbounds => have := hO (.inr (.inr (.inr (.inr (.inr (.inr (.inl rfl))))))); exact hother this.2.1 this.2.2.1
      | upperbounds => have := hO (.inr (.inr (.inr (.inr (.inr (.inr (.inr rfl))))))); exact hother this.2.1 this.2.2.1
      | objective => exact ⟨h0, h0⟩
      | values => exact ⟨hs.2.objective, hs.2.processed⟩) h (fun _ _ => trivial) (SdpState.init E) ⟨SdpState.init_good E, by
        have hb : ObjNodup (SdpState.blank E) := ⟨by simp [SdpState.blank, State.Dict.keys], by simp [SdpState.blank, State.Dict.keys]⟩
        exact objNodup_setValues E _ _ _ _ (objNodup_setObjective E _ _ _ (SdpState.blank_good E) hb)⟩
  exact key.2

/-- The value of a linear expression at a real point. -/
noncomputable def dictR (d : Dict Mon Rat) (y : Mon → ℝ) : ℝ := (d.map fun t => ((t.2 : Rat) : ℝ) * y t.1).sum

theorem dictR_functional (d : Dict Mon Rat) (y : Mon → ℝ) (f : ℝ →ₗ[ℚ] ℚ) : dictVal d (fun m => f (y m)) = f (dictR d y) := by
  unfold dictVal dictR
  induction d with
  | nil => simp
  | cons t d ih =>
    rw [List.map_cons, List.map_cons, List.sum_cons, List.sum_cons, ih, map_add]
    congr 1
    have : (((t.2 : Rat) : ℝ) * y t.1) = (t.2 : ℚ) • y t.1 := by rw [Rat.smul_def]
    rw [this, map_smul, smul_eq_mul]

/-- A faithful objective is faithful at real points. -/
theorem faithful_real {s : SdpState.St} (h : ObjectiveFaithful s) (y : Mon → ℝ) (h1 : y one = 1) (hy : ∀ m v, s.known.get m = some v → y m = ((v : Rat) : ℝ)) :
    dictR s.processed y = dictR s.objective y := by
  by_contra hne
  have hd : dictR s.processed y - dictR s.objective y ≠ 0 := sub_ne_zero.2 hne
  set d := dictR s.processed y - dictR s.objective y with hdd
  have hrat : ∀ (f : ℝ →ₗ[ℚ] ℚ) (v : ℚ), f ((v : ℚ) : ℝ) = v * f 1 := by
    intro f v
    have : ((v : ℚ) : ℝ) = (v : ℚ) • (1 : ℝ) := by rw [Rat.smul_def, mul_one]
    rw [this, map_smul, smul_eq_mul]
  have hzero : ∀ f : ℝ →ₗ[ℚ] ℚ, f 1 = 1 → f d = 0 := by
    intro f hf
    have := h (fun m => f (y m)) (by rw [h1, hf]) (by intro m v hm; rw [hy m v hm, hrat, hf, mul_one])
    rw [dictR_functional, dictR_functional] at this
    rw [hdd, map_sub, this, sub_self]
  obtain ⟨g, hg⟩ : ∃ g : Module.Dual ℚ ℝ, g d ≠ 0 := by
    by_contra hn
    push Not at hn
    exact hd ((Module.forall_dual_apply_eq_zero_iff ℚ d).1 hn)
  obtain ⟨k, hk⟩ : ∃ g : Module.Dual ℚ ℝ, g 1 ≠ 0 := by
    by_contra hn
    push Not at hn
    exact one_ne_zero ((Module.forall_dual_apply_eq_zero_iff ℚ (1 : ℝ)).1 hn)
  set e : ℝ →ₗ[ℚ] ℚ := (k 1)⁻¹ • k with he
  have he1 : e 1 = 1 := by simp [he, hk]
  have hed := hzero e he1
  have hf := hzero (e + (g - (g 1) • e)) (by simp [he1])
  simp only [LinearMap.add_apply, LinearMap.sub_apply, LinearMap.smul_apply, hed, smul_zero, sub_zero, zero_add] at hf
  exact hg hf

/-- No call uses linearised constraints. -/
def NoLpi (h : List (SdpState.Call Mon)) : Prop := ∀ c ∈ h, match c with | .setValues _ lpi _ => lpi = false | .updateValues _ lpi _ => lpi = false | _ => True

/-- Without linearised constraints there are no semi-known moments. -/
theorem semi_nil (E : SdpState.Env Mon) (hE : E.supports = false) (solver : Args → SolverOut) (h : List (SdpState.Call Mon)) (hl : NoLpi h) (m : Mon) :
    (SdpState.run E solver h).semi.get m = none := by
  refine SdpState.values_induction E hE solver (fun _ e => ∀ m : Mon, Dict.get e m = none)
    (fun c => match c with | .setValues _ lpi _ => lpi = false | .updateValues _ lpi _ => lpi = false | _ => True) ?_ ?_ ?_ h hl m
  · intro k e e' hee' hv m
    rcases hm : Dict.get e' m with _ | x
    · rfl
    · have := hee' m x hm
      rw [hv m] at this
      exact absurd this (by simp)
  · intro m; simp
  · intro s v lpi o _ _ hq hs m
    have hlpi : lpi = false := by rcases hq with ⟨h, -⟩ | h <;> exact h
    subst hlpi
    show Dict.get (preUpdate E v false o s).semi m = none
    unfold preUpdate
    dsimp only
    split
    · exact hs m
    · have : ∀ (ms : List Mon) (at' : Dict Atom Rat) (st : Dict Mon Rat × Dict Mon (Rat × Mon)), (ms.foldl (evalMon E at' false) st).2 = st.2 := by
        intro ms at'
        induction ms with
        | nil => intro st; rfl
        | cons m ms ih =>
          intro st
          rw [List.foldl_cons, ih]
          unfold evalMon
          dsimp only
          split <;> simp
      rw [this]
      exact hs m

end Verif.SdpEnd

import Verif.SdpEnd.Props
import Verif.SdpEnd.Unit
/-!
Truthful calls do not raise.
-/
namespace Verif.SdpEnd
open Verif.Common Verif.Moment Verif.SdpState
open Verif.State (Dict Mon get_of_mem get_set nodup_set mem_keys get_none)
open Verif.EndToEnd (Input)

variable {K : Type}

/-- `_update_bounds` succeeds if all bounds are compatible with the values. -/
theorem boundLoop_total (good : Rat → Rat → Bool) (known b : Dict Mon Rat) (h : ∀ t ∈ known, ∀ x, b.get t.1 = some x → good x t.2 = true) :
    ∃ b', boundLoop good known b = .ok b' := by
  induction known generalizing b with
  | nil => exact ⟨b, rfl⟩
  | cons t known ih =>
    have h1 : ∃ b1, boundStep good b t = .ok b1 ∧ ∀ m x, b1.get m = some x → b.get m = some x := by
      unfold boundStep
      rcases hb : b.get t.1 with _ | x
      · exact ⟨b, rfl, fun _ _ h => h⟩
      · simp only [h t (by simp) x hb, if_true]
        refine ⟨_, rfl, ?_⟩
        intro m y hm
        rw [get_erase] at hm
        split at hm
        · simp at hm
        · exact hm
    obtain ⟨b1, e1, hsub⟩ := h1
    obtain ⟨b2, e2⟩ := ih b1 fun u hu x hx => h u (List.mem_cons_of_mem _ hu) x (hsub _ _ hx)
    exact ⟨b2, by simp only [boundLoop, e1, e2]⟩

/-- Values and bounds of a state are true of `y`. -/
structure Fits (y : Mon → ℝ) (s : St) : Prop where
  known : ∀ m v, s.known.get m = some v → y m = ((v : Rat) : ℝ)
  lower : ∀ m x, s.lower.get m = some x → ((x : Rat) : ℝ) ≤ y m
  upper : ∀ m x, s.upper.get m = some x → y m ≤ ((x : Rat) : ℝ)

theorem updateLower_none {y : Mon → ℝ} {s : St} (hg : s.known.keys.Nodup) (hk : ∀ m v, s.known.get m = some v → y m = ((v : Rat) : ℝ))
    (hl : ∀ m x, s.lower.get m = some x → ((x : Rat) : ℝ) ≤ y m) : (updateLower s).2 = none := by
  obtain ⟨b', e⟩ := boundLoop_total (fun b v => decide (b ≤ v)) s.known s.lower (by
    intro t ht x hx
    have h1 := hk t.1 t.2 ((get_of_mem _ hg _ _).1 ht)
    have h2 := hl t.1 x hx
    rw [h1] at h2
    simpa using Rat.cast_le.1 h2)
  unfold updateLower
  rw [e]

theorem updateUpper_none {y : Mon → ℝ} {s : St} (hg : s.known.keys.Nodup) (hk : ∀ m v, s.known.get m = some v → y m = ((v : Rat) : ℝ))
    (hu : ∀ m x, s.upper.get m = some x → y m ≤ ((x : Rat) : ℝ)) : (updateUpper s).2 = none := by
  obtain ⟨b', e⟩ := boundLoop_total (fun b v => decide (v ≤ b)) s.known s.upper (by
    intro t ht x hx
    have h1 := hk t.1 t.2 ((get_of_mem _ hg _ _).1 ht)
    have h2 := hu t.1 x hx
    rw [h1] at h2
    simpa using Rat.cast_le.1 h2)
  unfold updateUpper
  rw [e]

theorem andThen_none {r : Out} {f : St → Out} (h1 : r.2 = none) (h2 : (f r.1).2 = none) : (andThen r f).2 = none := by
  unfold andThen
  rw [h1]
  exact h2

theorem updateLower_st (s : St) : ∃ b, (updateLower s).1 = { s with lower := b } := by
  unfold updateLower; split <;> exact ⟨_, rfl⟩

theorem updateUpper_st (s : St) : ∃ b, (updateUpper s).1 = { s with upper := b } := by
  unfold updateUpper; split <;> exact ⟨_, rfl⟩

theorem cleanup_none (E : Env K) (hE : E.supports = false) {y : Mon → ℝ} {s : St} (hg : s.known.keys.Nodup) (h : Fits y s) (hs : ∀ m, s.semi.get m = none) :
    (cleanup E s).2 = none := by
  have hss : supportsStep E s = s := by unfold supportsStep; rw [hE]; simp
  unfold cleanup
  rw [hss]
  have h1 := updateLower_none hg h.known h.lower
  obtain ⟨b, e1⟩ := updateLower_st s
  have h2 : (andThen (updateLower s) updateUpper).2 = none := by
    refine andThen_none h1 ?_
    rw [e1]
    exact updateUpper_none (s := { s with lower := b }) hg h.known h.upper
  have e2 : ∃ b', (andThen (updateLower s) updateUpper).1 = { s with lower := b, upper := b' } := by
    unfold andThen
    rw [h1]
    dsimp only
    rw [e1]
    obtain ⟨b', e⟩ := updateUpper_st { s with lower := b }
    exact ⟨b', e⟩
  obtain ⟨b', e2⟩ := e2
  refine andThen_none (andThen_none h2 ?_) rfl
  rw [e2]
  unfold updateObjective
  simp [hs]

theorem sanitiseBounds_total (E : Env K) (l : List (K × Rat)) (d : Dict Mon Rat) (hl : (l.map fun t => E.san t.1).Nodup) (hd : ∀ t ∈ l, d.get (E.san t.1) = none) :
    ∃ d', sanitiseBounds E l d = some d' := by
  induction l generalizing d with
  | nil => exact ⟨d, rfl⟩
  | cons t l ih =>
    obtain ⟨k, v⟩ := t
    rw [List.map_cons, List.nodup_cons] at hl
    unfold sanitiseBounds
    rw [hd (k, v) (by simp)]
    refine ih _ hl.2 ?_
    intro u hu
    rw [get_set, if_neg, hd u (List.mem_cons_of_mem _ hu)]
    intro e
    exact hl.1 (List.mem_map.2 ⟨u, hu, e.symm⟩)

/-- A use of the public methods with no linearised constraints, values for all moments determined by the given ones, objectives that only mention moments of the problem, and every
bound given once. -/
def Careful (moments : List Mon) : Call Mon → Prop
  | .setValues _ lpi shared => lpi = false ∧ shared = false
  | .updateValues _ lpi shared => lpi = false ∧ shared = false
  | .setObjective (some d) _ => ∀ t ∈ d, t.1 ∈ moments
  | .setLower (some l) => (l.map Prod.fst).Nodup
  | .setUpper (some l) => (l.map Prod.fst).Nodup
  | _ => True

theorem careful_noLpi {moments : List Mon} {h : List (Call Mon)} (hc : ∀ c ∈ h, Careful moments c) : NoLpi h := by
  intro c hm
  have := hc c hm
  cases c <;> simp_all [Careful]

/-- All known moments are moments of the problem. -/
theorem known_mem (E : Env Mon) (hE : E.supports = false) (hone : one ∈ E.moments) (hzero : ∀ z, E.zero = some z → z ∈ E.moments) (solver : Args → SolverOut)
    (h : List (Call Mon)) (hc : ∀ c ∈ h, Careful E.moments c) : ∀ m v, (run E solver h).known.get m = some v → m ∈ E.moments := by
  refine SdpState.values_induction E hE solver (fun k _ => ∀ (m : Mon) (v : Rat), Dict.get k m = some v → m ∈ E.moments) (fun c => Careful E.moments c) (fun _ _ _ _ h => h) ?_ ?_ h hc
  · intro m v hm
    rw [get_set] at hm
    split at hm
    · rename_i e; rw [← e]; exact hone
    · rcases hz : E.zero with _ | z
      · rw [hz] at hm; simp at hm
      · rw [hz] at hm
        dsimp only at hm
        rw [get_set] at hm
        split at hm
        · rename_i e; rw [← e]; exact hzero z hz
        · simp at hm
  · intro s v lpi o hg _ hq hs m x hm
    have hq' : lpi = false ∧ o = false := by rcases hq with ⟨h, -⟩ | h <;> exact h
    obtain ⟨rfl, rfl⟩ := hq'
    unfold preUpdate at hm
    simp only [Bool.false_eq_true, if_false] at hm
    rcases (SdpState.evalLoop_of E _ false _ _).1 m x hm with h1 | ⟨h1, _⟩
    · rw [State.get_filter _ _ (SdpState.assign_nodup E v _ hg.known)] at h1
      simpa using h1.2
    · exact (SdpState.remaining_of E _ false m h1).1

theorem solverArgs_total (E : Env Mon) (s : St) (h : ∀ m v, s.known.get m = some v → m ∈ E.moments) : ∃ a, solverArgs E s = some a := by
  unfold solverArgs
  rw [if_pos]
  · exact ⟨_, rfl⟩
  · rw [List.all_eq_true]
    intro m hm
    obtain ⟨v, hv⟩ := (mem_keys _ _).1 hm
    simpa using h m v hv

variable {I : Input} {R : Type} [Ring R] [StarRing R] [Algebra ℝ R]

theorem fits_of_holds {M : InflatedModel I R} {s : St} (h : Holds M.val s) : Fits M.value s :=
  ⟨fun m v hm => (h.values.known m v hm).1, fun m x hx => (h.lower m x hx).1, fun m x hx => (h.upper m x hx).1⟩

/-- **C56, no exceptions.** A careful use of the program that only tells it what is true of the model raises no exception, and the arguments for the solver can be prepared. -/
theorem C56_no_exception_partial {cols : List (List Nat)} {ch : Choice} {name : Atom → String} {B : Built} (hV : Setup I cols ch name B) (hone : [] ∈ cols) (M : InflatedModel I R)
    (hherm : ∀ m ∈ B.env.hermitian, 0 ≤ M.value m) (solver : Args → SolverOut) (h : List (Call Mon)) (ht : ∀ c ∈ h, Truthful I B M c) (hc : ∀ c ∈ h, Careful B.env.moments c) :
    Ok B.env solver h ∧ ∃ a, solverArgs B.env (run B.env solver h) = some a := by
  have hsup : B.env.supports = false := by obtain ⟨_, _, _, _, _, _, _, _, _, _, henv⟩ := build_some hV.built; rw [henv]
  have hsan : B.env.san = id := by obtain ⟨_, _, _, _, _, _, _, _, _, _, henv⟩ := build_some hV.built; rw [henv]
  have hone' := one_mem hV.columns hV.built hone
  have hzero := zero_mem hV.columns hV.built
  have hargs : ∀ g : List (Call Mon), (∀ c ∈ g, Careful B.env.moments c) → ∃ a, solverArgs B.env (run B.env solver g) = some a := fun g hg =>
    solverArgs_total _ _ (known_mem B.env hsup hone' hzero solver g hg)
  refine ⟨?_, hargs h hc⟩
  intro h1 c h2 e
  have hm1 : ∀ d ∈ h1, d ∈ h := fun d hd => by rw [e]; simp [hd]
  have hmc : c ∈ h := by rw [e]; simp
  have hholds : ∀ g : List (Call Mon), (∀ d ∈ g, d ∈ h) → Holds M.val (run B.env solver g) := fun g hg =>
    history_holds M hV hherm solver g fun d hd => truthful_callTrue hV M (ht d (hg d hd))
  have hF := fits_of_holds (hholds h1 hm1)
  have hF' : Fits M.value (call B.env solver (run B.env solver h1) c).1 := by
    have := fits_of_holds (hholds (h1 ++ [c]) (by intro d hd; rcases List.mem_append.1 hd with hd | hd; exact hm1 d hd; rw [List.mem_singleton.1 hd]; exact hmc))
    rwa [SdpState.run_snoc] at this
  have hg := SdpState.run_good B.env solver h1
  have hsemi := semi_nil B.env hsup solver h1 (careful_noLpi fun d hd => hc d (hm1 d hd))
  have hcare := hc c hmc
  have hT := truthful_callTrue hV M (ht c hmc)
  have hpre : ∀ (t : St) v, t.semi = (run B.env solver h1).semi ∨ t.semi = [] → ∀ m, (preUpdate B.env v false false t).semi.get m = none := by
    intro t v ht m
    have : (preUpdate B.env v false false t).semi = t.semi := by
      unfold preUpdate
      have hfold : ∀ (ms : List Mon) (at' : Dict Atom Rat) (st : Dict Mon Rat × Dict Mon (Rat × Mon)), (ms.foldl (evalMon B.env at' false) st).2 = st.2 := by
        intro ms at'
        induction ms with
        | nil => intro st; rfl
        | cons m ms ih =>
          intro st
          rw [List.foldl_cons, ih]
          unfold evalMon
          dsimp only
          split <;> simp
      simp only [Bool.false_eq_true, if_false]
      rw [hfold]
    rw [this]
    rcases ht with ht | ht
    · rw [ht]; exact hsemi m
    · rw [ht]; rfl
  have hupd : ∀ (t : St) v, SdpState.Good t → t.lower = (run B.env solver h1).lower → t.upper = (run B.env solver h1).upper → (t.semi = (run B.env solver h1).semi ∨ t.semi = []) →
      Fits M.value (updateValues B.env v false false t).1 → (updateValues B.env v false false t).2 = none := by
    intro t v hgt hl hu hs hf
    unfold updateValues at hf ⊢
    split
    · rfl
    · rename_i hv
      rw [if_neg hv] at hf
      have hgp := SdpState.pre_good B.env v false false t hgt
      have hk := (SdpState.cleanup_values B.env hsup _ hgp).1
      refine cleanup_none B.env hsup hgp.known (y := M.value) ⟨?_, ?_, ?_⟩ (hpre t v hs)
      · intro m x hm
        rw [← hk] at hm
        exact hf.known m x hm
      · intro m x hm
        have : (preUpdate B.env v false false t).lower = t.lower := rfl
        rw [this, hl] at hm
        exact hF.lower m x hm
      · intro m x hm
        have : (preUpdate B.env v false false t).upper = t.upper := rfl
        rw [this, hu] at hm
        exact hF.upper m x hm
  have hdefault : ∀ m x, (defaultLower B.env).get m = some x → ((x : Rat) : ℝ) ≤ M.value m := by
    intro m x hm
    rw [SdpState.defaultLower_get] at hm
    split at hm
    · rename_i hmem
      rw [← Option.some.inj hm]
      simpa using hherm m hmem
    · simp at hm
  have hresetLower : ∀ t : St, t.known.keys.Nodup → (∀ m v, t.known.get m = some v → M.value m = ((v : Rat) : ℝ)) → (resetLower B.env t).2 = none := by
    intro t hn hk
    exact updateLower_none (s := { resetSolution t with lower := defaultLower B.env }) hn hk hdefault
  cases c with
  | setValues v lpi o =>
    obtain ⟨rfl, rfl⟩ := hcare
    have hgr := SdpState.resetValues_good B.env _ hg
    show (SdpState.setValues B.env v false false (run B.env solver h1)).2 = none
    have hF' : Fits M.value (SdpState.setValues B.env v false false (run B.env solver h1)).1 := hF'
    unfold SdpState.setValues at hF' ⊢
    dsimp only at hF' ⊢
    split
    · rename_i hv
      rw [if_pos hv] at hF'
      have hk := (SdpState.cleanup_values B.env hsup _ hgr).1
      refine cleanup_none B.env hsup hgr.known (y := M.value) ⟨?_, hF.lower, hF.upper⟩ (fun m => rfl)
      intro m x hm
      rw [← hk] at hm
      exact hF'.known m x hm
    · rename_i hv
      rw [if_neg hv] at hF'
      exact hupd _ v hgr rfl rfl (.inr rfl) hF'
  | updateValues v lpi o =>
    obtain ⟨rfl, rfl⟩ := hcare
    exact hupd _ v hg rfl rfl (.inl rfl) hF'
  | setObjective o mx =>
    show (SdpState.setObjective B.env o mx (run B.env solver h1)).2 = none
    unfold SdpState.setObjective
    rw [hsup]
    simp only [Bool.false_and, Bool.false_eq_true, if_false]
    rcases o with _ | d
    · rfl
    · dsimp only
      rw [if_pos]
      · unfold updateObjective
        have hsem : ∀ m, (resetObjective (run B.env solver h1)).semi.get m = none := hsemi
        simp [hsem]
      · rw [List.all_eq_true]
        intro m hm
        simp only [decide_eq_true_eq]
        have hcare : ∀ t ∈ d, t.1 ∈ B.env.moments := hcare
        have key : ∀ (d : List (Mon × Rat)), (∀ t ∈ d, t.1 ∈ B.env.moments) → ∀ m ∈ Dict.keys (sanitiseDict B.env d), m ∈ B.env.moments := by
          intro d hd
          unfold sanitiseDict
          have hgen : ∀ (d : List (Mon × Rat)) (out : Dict Mon Rat), (∀ t ∈ d, t.1 ∈ B.env.moments) → (∀ m ∈ Dict.keys out, m ∈ B.env.moments) →
              ∀ m ∈ Dict.keys (d.foldl (fun (out : Dict Mon Rat) (t : Mon × Rat) => if isClose0 t.2 then out else out.set (B.env.san t.1) ((out.get (B.env.san t.1)).getD 0 + t.2)) out), m ∈ B.env.moments := by
            intro d
            induction d with
            | nil => intro out _ h; exact h
            | cons t d ih =>
              intro out hd ho
              rw [List.foldl_cons]
              refine ih _ (fun u hu => hd u (List.mem_cons_of_mem _ hu)) ?_
              split
              · exact ho
              · intro m hm
                rcases (State.mem_set_keys _ _ _ _).1 hm with h | h
                · rw [h, hsan]; exact hd t (by simp)
                · exact ho m h
          exact hgen d [] hd (by simp [State.Dict.keys])
        have hm2 : m ∈ Dict.keys (sanitiseDict B.env d) ∨ m = one := by
          unfold newObjective at hm
          generalize (if mx = true then (1 : Rat) else -1) = q at hm
          have hk : Dict.keys ((sanitiseDict B.env d).map fun t => (t.1, q * t.2)) = Dict.keys (sanitiseDict B.env d) := by
            unfold State.Dict.keys
            rw [List.map_map]
            rfl
          rw [← hk]
          unfold setDefault at hm
          split at hm
          · exact .inl hm
          · rcases (State.mem_set_keys _ _ _ _).1 hm with h | h
            · exact .inr h
            · exact .inl h
        rcases hm2 with h | h
        · exact key d hcare m h
        · rw [h]; exact hone'
  | setLower b =>
    rcases b with _ | l
    · rfl
    · show (SdpState.setLower B.env (some l) (run B.env solver h1)).2 = none
      unfold SdpState.setLower
      obtain ⟨d, hd⟩ := sanitiseBounds_total B.env l [] (by rw [hsan]; exact hcare) (by simp)
      simp only [hd]
      refine andThen_none (hresetLower _ hg.known hF.known) ?_
      obtain ⟨b, eb⟩ := updateLower_st { resetSolution (run B.env solver h1) with lower := defaultLower B.env }
      have eb' : (resetLower B.env (run B.env solver h1)).1 = { resetSolution (run B.env solver h1) with lower := b } := eb
      have hb : ∀ m x, b.get m = some x → ((x : Rat) : ℝ) ≤ M.value m := by
        have := resetLower_bounds (PL := fun m x => ((x : Rat) : ℝ) ≤ M.value m) (PU := fun m x => M.value m ≤ ((x : Rat) : ℝ)) B.env (fun m hm => by simpa using hherm m hm)
          (run B.env solver h1) ⟨hF.lower, hF.upper⟩
        rw [eb'] at this
        exact this.lower
      have hdn : d.keys.Nodup := SdpState.sanitiseBounds_nodup B.env l [] d (by simp [State.Dict.keys]) hd
      have hdb := (sanitiseBounds_all B.env (fun m x => ((x : Rat) : ℝ) ≤ M.value m) l [] d (by intro t ht; rw [hsan]; exact (hT t ht).1) (by intro m v hm; simp at hm)
        (by simp [State.Dict.keys]) hd).2
      rw [eb']
      refine updateLower_none (y := M.value) (s := { resetSolution (run B.env solver h1) with lower := d.foldl (fun b t => b.set t.1 t.2) b }) hg.known hF.known ?_
      intro m x hx
      dsimp only at hx
      rw [SdpState.fold_set_get d hdn] at hx
      rcases hdm : d.get m with _ | z
      · rw [hdm] at hx; exact hb m x hx
      · rw [hdm] at hx
        have := Option.some.inj hx
        subst this
        exact hdb m z hdm
  | setUpper b =>
    rcases b with _ | l
    · rfl
    · show (SdpState.setUpper B.env (some l) (run B.env solver h1)).2 = none
      unfold SdpState.setUpper
      obtain ⟨d, hd⟩ := sanitiseBounds_total B.env l [] (by rw [hsan]; exact hcare) (by simp)
      simp only [hd]
      have hdb := (sanitiseBounds_all B.env (fun m x => M.value m ≤ ((x : Rat) : ℝ)) l [] d (by intro t ht; rw [hsan]; exact (hT t ht).1) (by intro m v hm; simp at hm)
        (by simp [State.Dict.keys]) hd).2
      refine andThen_none rfl ?_
      exact updateUpper_none (y := M.value) (s := { resetSolution (run B.env solver h1) with upper := d }) hg.known hF.known hdb
  | setExtraEq l => rfl
  | setExtraIneq l => rfl
  | reset w =>
    have hgr := SdpState.resetValues_good B.env _ hg
    have hall : (resetLower B.env (resetValues B.env (run B.env solver h1))).2 = none := by
      refine hresetLower _ hgr.known ?_
      have := fits_of_holds (hholds [] (by simp))
      intro m v hm
      have hk := (SdpState.cleanup_values B.env hsup _ (SdpState.resetValues_good B.env _ (SdpState.setObjective_good B.env none true _ (SdpState.blank_good B.env)))).1
      have hk' : (run B.env solver []).known = (resetValues B.env (run B.env solver h1)).known := hk
      exact this.known m v (by rw [hk']; exact hm)
    cases w with
    | all => exact andThen_none (andThen_none hall rfl) rfl
    | bounds => exact andThen_none (hresetLower _ hg.known hF.known) rfl
    | lowerbounds => exact hresetLower _ hg.known hF.known
    | upperbounds => rfl
    | objective => rfl
    | values => rfl
  | solve =>
    show (SdpState.solve B.env solver (run B.env solver h1)).2 = none
    obtain ⟨a, ha⟩ := hargs h1 fun d hd => hc d (hm1 d hd)
    unfold SdpState.solve
    rw [ha]

end Verif.SdpEnd

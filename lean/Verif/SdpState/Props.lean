import Verif.SdpState.Lemmas
/-
C26, C27, C29, C33, C44 for `InflationSDP`.
-/
namespace Verif.SdpState
open Verif.Common Verif.Moment
open Verif.State (Dict Mon dictVal valM get_set get_cons get_nil get_filter mem_keys get_none mem_set_keys nodup_set nodup_filter get_of_mem fold_set_nodup)

variable {K : Type}

/-! ## Results -/

theorem updateLower_result (s : St) : (updateLower s).1.result = s.result ∧ (updateLower s).1.maximize = s.maximize := by
  unfold updateLower; split <;> exact ⟨rfl, rfl⟩

theorem updateUpper_result (s : St) : (updateUpper s).1.result = s.result := by
  unfold updateUpper; split <;> rfl

theorem andThen_result (r : Out) (f : St → Out) (x : Result) (h : r.1.result = x) (hf : ∀ s : St, s.result = x → (f s).1.result = x) : (andThen r f).1.result = x := by
  unfold andThen; split
  · exact hf _ h
  · exact h

theorem cleanup_result (E : Env K) (s : St) (x : Result) (h : s.result = x) : (cleanup E s).1.result = x := by
  have h0 : (supportsStep E s).result = x := by unfold supportsStep; split <;> exact h
  refine andThen_result _ _ x (andThen_result _ _ x (andThen_result _ _ x ?_ ?_) ?_) ?_
  · rw [(updateLower_result _).1]; exact h0
  · intro s hs; rw [updateUpper_result]; exact hs
  · intro s hs; exact hs
  · intro s hs; exact hs

/-- Every call either discards the result, or is `solve`, or leaves everything but the extra constraints alone. -/
theorem call_result (E : Env K) (solver : Args → SolverOut) (s : St) (c : Call K) :
    (call E solver s c).1.result = .notSolved ∨ c = .solve ∨ ∃ xe xi, (call E solver s c).1 = { s with extraEq := xe, extraIneq := xi } := by
  cases c with
  | setValues v lpi o =>
    refine .inl ?_
    show (setValues E v lpi o s).1.result = _
    unfold setValues
    dsimp only
    split
    · exact cleanup_result E _ _ rfl
    · rename_i hv
      unfold updateValues
      rw [if_neg hv]
      exact cleanup_result E _ _ rfl
  | updateValues v lpi o =>
    show (updateValues E v lpi o s).1.result = _ ∨ _ ∨ ∃ xe xi, (updateValues E v lpi o s).1 = _
    unfold updateValues
    split
    · exact .inr (.inr ⟨s.extraEq, s.extraIneq, rfl⟩)
    · exact .inl (cleanup_result E _ _ rfl)
  | setObjective o m =>
    show (setObjective E o m s).1.result = _ ∨ _ ∨ ∃ xe xi, (setObjective E o m s).1 = _
    unfold setObjective
    split
    · exact .inr (.inr ⟨s.extraEq, s.extraIneq, rfl⟩)
    · refine .inl ?_
      dsimp only
      split
      · rfl
      · split <;> rfl
  | setLower b =>
    show (setLower E b s).1.result = _ ∨ _ ∨ ∃ xe xi, (setLower E b s).1 = _
    unfold setLower
    split
    · exact .inr (.inr ⟨s.extraEq, s.extraIneq, rfl⟩)
    · split
      · exact .inr (.inr ⟨s.extraEq, s.extraIneq, rfl⟩)
      · refine .inl (andThen_result _ _ _ ?_ ?_)
        · exact (updateLower_result _).1
        · intro s' hs'; rw [(updateLower_result _).1]; exact hs'
  | setUpper b =>
    show (setUpper E b s).1.result = _ ∨ _ ∨ ∃ xe xi, (setUpper E b s).1 = _
    unfold setUpper
    split
    · exact .inr (.inr ⟨s.extraEq, s.extraIneq, rfl⟩)
    · split
      · exact .inr (.inr ⟨s.extraEq, s.extraIneq, rfl⟩)
      · refine .inl (andThen_result _ _ _ rfl ?_)
        intro s' hs'; rw [updateUpper_result]; exact hs'
  | setExtraEq l => exact .inr (.inr ⟨_, s.extraIneq, rfl⟩)
  | setExtraIneq l => exact .inr (.inr ⟨s.extraEq, _, rfl⟩)
  | reset w =>
    refine .inl ?_
    cases w with
    | all =>
      refine andThen_result _ _ _ (andThen_result _ _ _ ((updateLower_result _).1) ?_) ?_
      · intro s' hs'; rfl
      · intro s' hs'; rfl
    | bounds =>
      refine andThen_result _ _ _ ((updateLower_result _).1) ?_
      intro s' hs'; rfl
    | lowerbounds => exact (updateLower_result _).1
    | upperbounds => rfl
    | objective => rfl
    | values => rfl
  | solve => exact .inr (.inl rfl)

theorem solverArgs_extra (E : Env K) (s : St) (xe xi : List (Dict Mon Rat)) : solverArgs E { s with extraEq := xe, extraIneq := xi } = solverArgs E s := rfl

/-- **C44, SDP.** After any history of calls, including calls that raise, a stored result is the answer of the solver to the problem that would be passed to it now. -/
theorem C44_sdp_up_to_date (E : Env K) (solver : Args → SolverOut) (h : List (Call K)) : UpToDate E solver (run E solver h) := by
  refine fold_induction E solver (UpToDate E solver) (fun _ => True) ?_ h (fun _ _ => trivial) _ (.inl ?_)
  · intro s c _ hs
    rcases call_result E solver s c with h1 | h1 | ⟨xe, xi, h1⟩
    · exact .inl h1
    · subst h1
      show UpToDate E solver (solve E solver s).1
      unfold solve
      rcases ha : solverArgs E s with _ | a
      · exact hs
      · exact .inr ⟨a, ha, rfl⟩
    · rw [h1]
      rcases hs with hs | ⟨a, ha, hr⟩
      · exact .inl hs
      · exact .inr ⟨a, ha, hr⟩
  · show (setValues E [] false false _).1.result = _
    unfold setValues
    exact cleanup_result E _ _ rfl

/-! ## Extra constraints -/

/-- Equal up to the extra constraints. -/
def SameButExtra (s s' : St) : Prop := ∃ xe xi, s' = { s with extraEq := xe, extraIneq := xi }

/-- A function that commutes with changing the extra constraints. -/
def Blind (f : St → Out) : Prop :=
  ∀ s xe xi, ∃ xe' xi', (f { s with extraEq := xe, extraIneq := xi }).1 = { (f s).1 with extraEq := xe', extraIneq := xi' } ∧
    (f { s with extraEq := xe, extraIneq := xi }).2 = (f s).2

theorem blind_pure (f : St → St) (hf : ∀ s xe xi, ∃ xe' xi', f { s with extraEq := xe, extraIneq := xi } = { f s with extraEq := xe', extraIneq := xi' }) :
    Blind (fun s => (f s, none)) := by
  intro s xe xi
  obtain ⟨a, b, h⟩ := hf s xe xi
  exact ⟨a, b, h, rfl⟩

theorem blind_updateLower : Blind updateLower := by
  intro s xe xi
  unfold updateLower
  dsimp only
  split <;> exact ⟨xe, xi, rfl, rfl⟩

theorem blind_updateUpper : Blind updateUpper := by
  intro s xe xi
  unfold updateUpper
  dsimp only
  split <;> exact ⟨xe, xi, rfl, rfl⟩

theorem blind_updateObjective : Blind updateObjective := fun s xe xi => ⟨xe, xi, rfl, rfl⟩

theorem blind_dropSemi : Blind dropSemi := fun s xe xi => ⟨xe, xi, rfl, rfl⟩

theorem blind_andThen (f : St → Out) (g : St → Out) (hf : Blind f) (hg : Blind g) : Blind (fun s => andThen (f s) g) := by
  intro s xe xi
  obtain ⟨a, b, h1, h2⟩ := hf s xe xi
  simp only [andThen]
  rw [h1, h2]
  split
  · exact hg _ a b
  · exact ⟨a, b, by rw [h1], h2⟩

theorem blind_comp (f : St → St) (g : St → Out) (hf : ∀ s xe xi, ∃ xe' xi', f { s with extraEq := xe, extraIneq := xi } = { f s with extraEq := xe', extraIneq := xi' }) (hg : Blind g) :
    Blind (fun s => g (f s)) := by
  intro s xe xi
  obtain ⟨a, b, h⟩ := hf s xe xi
  simp only [h]
  exact hg _ a b

theorem blind_cleanup (E : Env K) : Blind (cleanup E) := by
  unfold cleanup
  refine blind_andThen _ _ (blind_andThen _ _ (blind_andThen _ _ (blind_comp _ _ ?_ blind_updateLower) blind_updateUpper) blind_updateObjective) blind_dropSemi
  intro s xe xi
  unfold supportsStep
  split <;> exact ⟨xe, xi, rfl⟩

theorem blind_updateValues (E : Env K) (v : List (K × Option Rat)) (lpi o : Bool) : Blind (updateValues E v lpi o) := by
  intro s xe xi
  unfold updateValues
  split
  · exact ⟨xe, xi, rfl, rfl⟩
  · have e : preUpdate E v lpi o { s with extraEq := xe, extraIneq := xi } = { preUpdate E v lpi o s with extraEq := xe, extraIneq := xi } := rfl
    rw [e]
    exact blind_cleanup E (preUpdate E v lpi o s) xe xi

theorem blind_resetLower (E : Env K) : Blind (resetLower E) :=
  blind_comp (fun s => { resetSolution s with lower := defaultLower E }) _ (fun _ xe xi => ⟨xe, xi, rfl⟩) blind_updateLower

theorem blind_resetUpper : Blind resetUpper := fun _ xe xi => ⟨xe, xi, rfl, rfl⟩

/-- Calls other than `solve` do not look at the extra constraints. -/
theorem blind_call (E : Env K) (solver : Args → SolverOut) (c : Call K) : Blind (fun s => call E solver s c) := by
  cases c with
  | setValues v lpi o =>
    show Blind (setValues E v lpi o)
    intro s xe xi
    unfold setValues
    dsimp only
    have : resetValues E { s with extraEq := xe, extraIneq := xi } = resetValues E s := rfl
    rw [this]
    exact ⟨_, _, rfl, rfl⟩
  | updateValues v lpi o => exact blind_updateValues E v lpi o
  | setObjective o m =>
    intro s xe xi
    show ∃ xe' xi', (setObjective E o m _).1 = { (setObjective E o m s).1 with extraEq := xe', extraIneq := xi' } ∧ (setObjective E o m _).2 = (setObjective E o m s).2
    unfold setObjective
    split
    · exact ⟨xe, xi, rfl, rfl⟩
    · dsimp only
      split
      · exact ⟨xe, xi, rfl, rfl⟩
      · split <;> exact ⟨xe, xi, rfl, rfl⟩
  | setLower b =>
    intro s xe xi
    show ∃ xe' xi', (setLower E b _).1 = { (setLower E b s).1 with extraEq := xe', extraIneq := xi' } ∧ (setLower E b _).2 = (setLower E b s).2
    unfold setLower
    split
    · exact ⟨xe, xi, rfl, rfl⟩
    · split
      · exact ⟨xe, xi, rfl, rfl⟩
      · rename_i d _
        exact blind_andThen _ _ (blind_resetLower E)
          (blind_comp (fun s => { s with lower := d.foldl (fun b t => b.set t.1 t.2) s.lower }) _ (fun _ xe xi => ⟨xe, xi, rfl⟩) blind_updateLower) s xe xi
  | setUpper b =>
    intro s xe xi
    show ∃ xe' xi', (setUpper E b _).1 = { (setUpper E b s).1 with extraEq := xe', extraIneq := xi' } ∧ (setUpper E b _).2 = (setUpper E b s).2
    unfold setUpper
    split
    · exact ⟨xe, xi, rfl, rfl⟩
    · split
      · exact ⟨xe, xi, rfl, rfl⟩
      · rename_i d _
        exact blind_andThen _ _ blind_resetUpper (blind_comp (fun s => { s with upper := d }) _ (fun _ xe xi => ⟨xe, xi, rfl⟩) blind_updateUpper) s xe xi
  | setExtraEq l => exact fun s xe xi => ⟨_, xi, rfl, rfl⟩
  | setExtraIneq l => exact fun s xe xi => ⟨xe, _, rfl, rfl⟩
  | reset w =>
    cases w with
    | all =>
      refine blind_andThen (fun s => andThen (resetLower E (resetValues E s)) resetUpper) (fun s => (resetObjective s, none))
        (blind_andThen (fun s => resetLower E (resetValues E s)) _ (blind_comp _ _ ?_ (blind_resetLower E)) blind_resetUpper)
        (blind_pure _ fun _ xe xi => ⟨xe, xi, rfl⟩)
      intro s xe xi; exact ⟨_, _, rfl⟩
    | bounds => exact blind_andThen _ _ (blind_resetLower E) blind_resetUpper
    | lowerbounds => exact blind_resetLower E
    | upperbounds => exact blind_resetUpper
    | objective => exact blind_pure _ fun _ xe xi => ⟨xe, xi, rfl⟩
    | values => exact blind_pure _ fun _ xe xi => ⟨_, _, rfl⟩
  | solve =>
    intro s xe xi
    show ∃ xe' xi', (solve E solver _).1 = { (solve E solver s).1 with extraEq := xe', extraIneq := xi' } ∧ (solve E solver _).2 = (solve E solver s).2
    unfold solve
    rw [solverArgs_extra]
    split
    · exact ⟨xe, xi, rfl, rfl⟩
    · exact ⟨xe, xi, rfl, rfl⟩

/-- **C33, SDP: false.** Setting extra constraints never has any effect on the problem passed to the solver, now or later: dropping all such calls from a history changes neither
the solver's arguments nor the reported results. -/
theorem C33_sdp_extra_ignored (E : Env K) (solver : Args → SolverOut) (h h' : List (Call K)) (c : Call K) (hc : (∃ l, c = .setExtraEq l) ∨ ∃ l, c = .setExtraIneq l) :
    solverArgs E (run E solver (h ++ c :: h')) = solverArgs E (run E solver (h ++ h')) ∧
    (run E solver (h ++ c :: h')).result = (run E solver (h ++ h')).result := by
  have key : SameButExtra (run E solver (h ++ h')) (run E solver (h ++ c :: h')) := by
    rw [run_append, run_append, List.foldl_cons]
    have h0 : SameButExtra (run E solver h) (call E solver (run E solver h) c).1 := by
      rcases hc with ⟨l, rfl⟩ | ⟨l, rfl⟩
      · exact ⟨_, (run E solver h).extraIneq, rfl⟩
      · exact ⟨(run E solver h).extraEq, _, rfl⟩
    generalize (call E solver (run E solver h) c).1 = s' at h0
    generalize run E solver h = s at h0
    induction h' generalizing s s' with
    | nil => exact h0
    | cons d h' ih =>
      rw [List.foldl_cons, List.foldl_cons]
      apply ih
      obtain ⟨xe, xi, rfl⟩ := h0
      obtain ⟨a, b, e, _⟩ := blind_call E solver d s xe xi
      exact ⟨a, b, e⟩
  obtain ⟨xe, xi, e⟩ := key
  rw [e]
  exact ⟨rfl, rfl⟩

/-- A problem with the unit and two more moments. -/
def exEnv : Env Nat :=
  ⟨⟨fun a => decide (a = [1]), fun _ => false, fun _ => false, fun a => "P" ++ toString a⟩, id, fun k => if k = 0 then [] else [[k]],
    [[], [[1]], [[2]], [[1], [2]]], [[], [[1]], [[2]], [[1], [2]]], false, none, []⟩

/-- **C33, SDP: a constraint is violated.** The user asks for `P[1] = 0` by an extra equality, which `moment_equalities` shows, yet a point with `P[1] = 1` satisfies everything
passed to the solver. -/
theorem C33_sdp_extra_violated :
    let s := run exEnv (fun _ => ⟨"feasible", 0⟩) [.setExtraEq [[(1, 1)]]]
    ∃ (a : Args) (y : Mon → Rat), solverArgs exEnv s = some a ∧ momentEqualities exEnv s = [[([[1]], 1)]] ∧ a.Feasible (withConst y) ∧ ¬ SatisfiesExtra s y := by
  intro s
  have hs : solverArgs exEnv s = some ⟨[(one, 0)], [(some [], 1), (none, 1)], [], [], [[(some [[1]], 1)], [(some [[2]], 1)], [(some [[1], [2]], 1)]]⟩ := by decide +kernel
  have hx : s.extraEq = [[([[1]], 1)]] := by decide +kernel
  refine ⟨_, fun _ => 1, hs, ?_, ⟨?_, by simp, by simp, ?_⟩, ?_⟩
  · show exEnv.minEq ++ s.extraEq = _
    rw [hx]; rfl
  · simp [withConst]
  · simp [withConst, dictVal]
  · rintro ⟨h, _⟩
    rw [hx] at h
    have := h [([[1]], 1)] (by simp)
    simp [dictVal] at this

/-! ## The arguments of the solver -/

theorem dictVal_rowOf (d : Dict Mon Rat) (y : Mon → Rat) : dictVal (rowOf d) (withConst y) = dictVal d y := by
  simp [dictVal, rowOf, List.map_map, Function.comp_def, withConst]

/-- **C29, SDP.** In every reachable state an assignment satisfies the linear constraints passed to the solver exactly when it satisfies the recorded values, semi-known relations,
generated equalities and bounds, provided no bound lies strictly within 10⁻⁸ of zero (such bounds are replaced by zero). -/
theorem C29_sdp_arguments_faithful (E : Env K) (solver : Args → SolverOut) (h : List (Call K)) (a : Args) (ha : solverArgs E (run E solver h) = some a) (y : Mon → Rat)
    (hlo : ∀ m v, (run E solver h).lower.get m = some v → isClose0 v = true → v = 0) (hup : ∀ m v, (run E solver h).upper.get m = some v → isClose0 v = true → v = 0) :
    a.Feasible (withConst y) ↔ Satisfies E (run E solver h) y := by
  have hg := run_good E solver h
  generalize run E solver h = s at *
  unfold solverArgs at ha
  split at ha
  · simp only [Option.some.injEq] at ha
    subst ha
    have lrow : ∀ m v, s.lower.get m = some v → (0 ≤ dictVal (lowerRow (m, v)) (withConst y) ↔ v ≤ y m) := by
      intro m v hm
      unfold lowerRow
      split
      · rename_i hc
        have := hlo m v hm hc
        subst this
        simp [dictVal, withConst]
      · simp [dictVal, withConst]
    have urow : ∀ m v, s.upper.get m = some v → (0 ≤ dictVal (upperRow (m, v)) (withConst y) ↔ y m ≤ v) := by
      intro m v hm
      unfold upperRow
      split
      · rename_i hc
        have := hup m v hm hc
        subst this
        simp [dictVal, withConst]
      · simp [dictVal, withConst]
    constructor
    · intro hf
      refine ⟨?_, ?_, ?_, ?_, ?_⟩
      · intro m v hm
        have := (get_of_mem s.known hg.known m v).2 hm
        exact hf.known (some m, v) (by simp [this])
      · intro m c m2 hm
        exact hf.semi (m, c, m2) ((get_of_mem s.semi hg.semi m (c, m2)).2 hm)
      · intro d hd
        rw [← dictVal_rowOf]
        exact hf.eqs (rowOf d) (List.mem_map.2 ⟨d, hd, rfl⟩)
      · intro m v hm
        have := (get_of_mem s.lower hg.lower m v).2 hm
        exact (lrow m v hm).1 (hf.ineqs _ (List.mem_append.2 (.inl (List.mem_map.2 ⟨_, this, rfl⟩))))
      · intro m v hm
        have := (get_of_mem s.upper hg.upper m v).2 hm
        exact (urow m v hm).1 (hf.ineqs _ (List.mem_append.2 (.inr (List.mem_map.2 ⟨_, this, rfl⟩))))
    · intro hs
      refine ⟨?_, ?_, ?_, ?_⟩
      · intro t ht
        rcases List.mem_append.1 ht with ht | ht
        · obtain ⟨⟨m, v⟩, hm, rfl⟩ := List.mem_map.1 ht
          exact hs.known m v ((get_of_mem s.known hg.known m v).1 hm)
        · simp only [List.mem_singleton] at ht
          subst ht; rfl
      · intro t ht
        exact hs.semi t.1 t.2.1 t.2.2 ((get_of_mem s.semi hg.semi t.1 t.2).1 ht)
      · intro r hr
        obtain ⟨d, hd, rfl⟩ := List.mem_map.1 hr
        rw [dictVal_rowOf]
        exact hs.minEq d hd
      · intro r hr
        rcases List.mem_append.1 hr with hr | hr
        · obtain ⟨⟨m, v⟩, hm, rfl⟩ := List.mem_map.1 hr
          have := (get_of_mem s.lower hg.lower m v).1 hm
          exact (lrow m v this).2 (hs.lower m v this)
        · obtain ⟨⟨m, v⟩, hm, rfl⟩ := List.mem_map.1 hr
          have := (get_of_mem s.upper hg.upper m v).1 hm
          exact (urow m v this).2 (hs.upper m v this)
  · simp at ha

/-! ## Values -/

/-- What `set_values` passes to the final clean-up: nothing in it depends on earlier values. -/
def valuesOf (E : Env K) (v : List (K × Option Rat)) (lpi o : Bool) : Dict Mon Rat × Dict Mon (Rat × Mon) :=
  let k0 : Dict Mon Rat := (match E.zero with | some z => Dict.set [] z 0 | none => ([] : Dict Mon Rat)).set one 1
  if v.isEmpty then (k0, [])
  else
    let known := assignValues E v k0
    if o then (known, [])
    else (remainingMons E (atomicKnowns E known) lpi).foldl (evalMon E (atomicKnowns E known) lpi) (known.filter fun t => decide (t.1 ∈ E.moments), [])

theorem setValues_eq (E : Env K) (v : List (K × Option Rat)) (lpi o : Bool) (s : St) :
    ∃ b, setValues E v lpi o s = cleanup E { resetValues E s with known := (valuesOf E v lpi o).1, semi := (valuesOf E v lpi o).2, useLpi := b } := by
  unfold setValues valuesOf
  dsimp only
  by_cases hv : v.isEmpty = true
  · rw [if_pos hv, if_pos hv]
    exact ⟨s.useLpi, rfl⟩
  · rw [if_neg hv, if_neg hv]
    unfold updateValues preUpdate
    rw [if_neg hv]
    refine ⟨lpi, ?_⟩
    cases o <;> rfl

theorem supports_known (E : Env K) (s s' : St) (h : s.known = s'.known) (h2 : s.semi = s'.semi) :
    (supportsStep E s).known = (supportsStep E s').known ∧ (supportsStep E s).semi = (supportsStep E s').semi := by
  unfold supportsStep
  split <;> simp [h, h2]

theorem valuesOf_nodup (E : Env K) (v : List (K × Option Rat)) (lpi o : Bool) : (valuesOf E v lpi o).1.keys.Nodup ∧ (valuesOf E v lpi o).2.keys.Nodup := by
  unfold valuesOf
  have h0 : (Dict.set (match E.zero with | some z => Dict.set [] z 0 | none => ([] : Dict Mon Rat)) one 1).keys.Nodup := by
    apply nodup_set
    cases E.zero with
    | none => simp [Dict.keys]
    | some z => exact nodup_set _ _ _ (by simp [Dict.keys])
  dsimp only
  split
  · exact ⟨h0, by simp [Dict.keys]⟩
  · split
    · exact ⟨assign_nodup E v _ h0, by simp [Dict.keys]⟩
    · exact evalLoop_nodup E _ _ _ _ (nodup_filter _ _ (assign_nodup E v _ h0)) (by simp [Dict.keys])

/-- **C26, SDP.** Whatever was done before, setting values leaves known moments and extra constraints that depend on the call alone, and semi-known moments as well unless the call raises. -/
theorem C26_sdp_no_trace (E : Env K) (solver : Args → SolverOut) (h h' : List (Call K)) (v : List (K × Option Rat)) (lpi o : Bool) :
    let r := call E solver (run E solver h) (.setValues v lpi o)
    let r' := call E solver (run E solver h') (.setValues v lpi o)
    r.1.known = r'.1.known ∧ r.1.extraEq = [] ∧ r.1.extraIneq = [] ∧ r.1.result = .notSolved ∧ r.1.objective = (run E solver h).objective ∧
    (r.2 = none → r'.2 = none → r.1.semi = r'.1.semi) := by
  intro r r'
  have hg := run_good E solver h
  have hg' := run_good E solver h'
  obtain ⟨b, e⟩ := setValues_eq E v lpi o (run E solver h)
  obtain ⟨b', e'⟩ := setValues_eq E v lpi o (run E solver h')
  have e : r = _ := e
  have e' : r' = _ := e'
  obtain ⟨n1, n2⟩ := valuesOf_nodup E v lpi o
  have g : ∀ s : St, Good s → ∀ b, Good { resetValues E s with known := (valuesOf E v lpi o).1, semi := (valuesOf E v lpi o).2, useLpi := b } :=
    fun s hs b => ⟨n1, n2, hs.lower, hs.upper, hs.objective, hs.one⟩
  obtain ⟨lo, up, pr, se, q1, _, _, _, _, _, q7⟩ := cleanup_eq E _ (supportsStep_good E _ (g _ hg b))
  obtain ⟨lo', up', pr', se', q1', _, _, _, _, _, q7'⟩ := cleanup_eq E _ (supportsStep_good E _ (g _ hg' b'))
  have sk := supports_known E { resetValues E (run E solver h) with known := (valuesOf E v lpi o).1, semi := (valuesOf E v lpi o).2, useLpi := b }
    { resetValues E (run E solver h') with known := (valuesOf E v lpi o).1, semi := (valuesOf E v lpi o).2, useLpi := b' } rfl rfl
  rw [← e] at q1 q7
  rw [← e'] at q1' q7'
  refine ⟨?_, ?_, ?_, ?_, ?_, ?_⟩
  · rw [q1, q1']; exact sk.1
  · rw [q1]; unfold supportsStep; split <;> rfl
  · rw [q1]; unfold supportsStep; split <;> rfl
  · rw [q1]; unfold supportsStep; split <;> rfl
  · rw [q1]; unfold supportsStep; split <;> rfl
  · intro hr hr'
    have h1 := (q7 hr).2.2.2.2.2.2
    have h2 := (q7' hr').2.2.2.2.2.2
    rw [q1, q1']
    show se = se'
    rw [h1, h2, sk.1, sk.2]

/-- **C26, SDP, bounds: what one call does.** If setting values does not raise, then on the points agreeing with the new values the bounds left in force mean the same as those in force before. -/
theorem C26_sdp_bounds_kept_partial (E : Env K) (hE : E.supports = false) (solver : Args → SolverOut) (h : List (Call K)) (v : List (K × Option Rat)) (lpi o : Bool)
    (hok : (call E solver (run E solver h) (.setValues v lpi o)).2 = none) (y : Mon → Rat)
    (hy : ∀ m x, (run E solver (h ++ [.setValues v lpi o])).known.get m = some x → y m = x) :
    ((∀ m x, (run E solver (h ++ [.setValues v lpi o])).lower.get m = some x → x ≤ y m) ↔ ∀ m x, (run E solver h).lower.get m = some x → x ≤ y m) ∧
    ((∀ m x, (run E solver (h ++ [.setValues v lpi o])).upper.get m = some x → y m ≤ x) ↔ ∀ m x, (run E solver h).upper.get m = some x → y m ≤ x) := by
  rw [run_snoc] at *
  have hg := run_good E solver h
  obtain ⟨b, e⟩ := setValues_eq E v lpi o (run E solver h)
  have e : call E solver (run E solver h) (.setValues v lpi o) = _ := e
  obtain ⟨n1, n2⟩ := valuesOf_nodup E v lpi o
  have g : Good { resetValues E (run E solver h) with known := (valuesOf E v lpi o).1, semi := (valuesOf E v lpi o).2, useLpi := b } :=
    ⟨n1, n2, hg.lower, hg.upper, hg.objective, hg.one⟩
  have hss : ∀ s : St, supportsStep E s = s := fun s => by unfold supportsStep; rw [hE]; simp
  obtain ⟨lo, up, pr, se, q1, _, _, _, _, _, q7⟩ := cleanup_eq E _ (supportsStep_good E _ g)
  rw [← e] at q1 q7
  obtain ⟨z1, z2, z3, z4, _⟩ := q7 hok
  rw [hss] at q1 z1 z2 z3 z4
  rw [q1] at hy ⊢
  have hy : ∀ m x, (valuesOf E v lpi o).1.get m = some x → y m = x := hy
  have z1 : ∀ m, lo.get m = if m ∈ (valuesOf E v lpi o).1.keys then none else (run E solver h).lower.get m := z1
  have z2 : ∀ m v' x, (valuesOf E v lpi o).1.get m = some v' → (run E solver h).lower.get m = some x → x ≤ v' := z2
  have z3 : ∀ m, up.get m = if m ∈ (valuesOf E v lpi o).1.keys then none else (run E solver h).upper.get m := z3
  have z4 : ∀ m v' x, (valuesOf E v lpi o).1.get m = some v' → (run E solver h).upper.get m = some x → v' ≤ x := z4
  constructor
  · show (∀ m x, lo.get m = some x → x ≤ y m) ↔ _
    constructor
    · intro hh m x hx
      by_cases hm : m ∈ (valuesOf E v lpi o).1.keys
      · obtain ⟨w, hw⟩ := (mem_keys _ _).1 hm
        rw [hy m w hw]
        exact z2 m w x hw hx
      · exact hh m x (by rw [z1, if_neg hm]; exact hx)
    · intro hh m x hx
      rw [z1] at hx
      split at hx
      · simp at hx
      · exact hh m x hx
  · show (∀ m x, up.get m = some x → y m ≤ x) ↔ _
    constructor
    · intro hh m x hx
      by_cases hm : m ∈ (valuesOf E v lpi o).1.keys
      · obtain ⟨w, hw⟩ := (mem_keys _ _).1 hm
        rw [hy m w hw]
        exact z4 m w x hw hx
      · exact hh m x (by rw [z3, if_neg hm]; exact hx)
    · intro hh m x hx
      rw [z3] at hx
      split at hx
      · simp at hx
      · exact hh m x hx

/-- **C26, SDP: false for bounds.** Setting a value for a moment and then clearing all values leaves the problem without the bound `P[1] ≥ 0` it had at the start. -/
theorem C26_sdp_bounds_lost (solver : Args → SolverOut) :
    (run exEnv solver []).lower.get [[1]] = some 0 ∧
    (run exEnv solver [.setValues [(1, some (1 / 2))] false false, .setValues [] false false]).lower.get [[1]] = none ∧
    (run exEnv solver [.setValues [(1, some (1 / 2))] false false, .setValues [] false false]).known = (run exEnv solver []).known ∧
    Ok exEnv solver [.setValues [(1, some (1 / 2))] false false, .setValues [] false false] := by
  refine ⟨?_, ?_, ?_, ?_⟩
  · simp only [run, List.foldl]; decide +kernel
  · simp only [run, List.foldl, call]; decide +kernel
  · simp only [run, List.foldl, call]; decide +kernel
  · intro h1 c h2 e
    rcases h1 with _ | ⟨c1, _ | ⟨c2, h1⟩⟩
    · simp only [List.nil_append, List.cons.injEq] at e
      obtain ⟨rfl, -⟩ := e
      simp only [run, List.foldl, call]; decide +kernel
    · simp only [List.cons_append, List.nil_append, List.cons.injEq] at e
      obtain ⟨rfl, rfl, -⟩ := e
      simp only [run, List.foldl, call]; decide +kernel
    · simp at e

/-! ## Disjointness -/

theorem cleanup_disjoint (E : Env K) (s : St) (hg : Good s) (hok : (cleanup E s).2 = none) (m : Mon) :
    (cleanup E s).1.known.get m = none ∨ (cleanup E s).1.semi.get m = none := by
  have hg' := supportsStep_good E s hg
  obtain ⟨lo, up, pr, se, q1, _, _, _, _, _, q7⟩ := cleanup_eq E s hg'
  have hse := (q7 hok).2.2.2.2.2.2
  rw [q1]
  show (supportsStep E s).known.get m = none ∨ se.get m = none
  by_cases hm : m ∈ (supportsStep E s).known.keys
  · right
    rw [hse]
    rcases hx : Dict.get ((supportsStep E s).semi.filter fun t => !(decide (t.1 ∈ (supportsStep E s).known.keys))) m with _ | x
    · rfl
    · rw [get_filter _ _ hg'.semi] at hx
      simp [hm] at hx
  · left
    exact (get_none _ _).2 hm

theorem values_same (E : Env K) (solver : Args → SolverOut) (s : St) (c : Call K) (h1 : ∀ v lpi o, c ≠ .setValues v lpi o) (h2 : ∀ v lpi o, c ≠ .updateValues v lpi o) :
    ((call E solver s c).1.known = s.known ∧ (call E solver s c).1.semi = s.semi) ∨
    ((call E solver s c).1.known = (resetValues E s).known ∧ (call E solver s c).1.semi = []) := by
  have hlo : ∀ s : St, (updateLower s).1.known = s.known ∧ (updateLower s).1.semi = s.semi := fun s => by unfold updateLower; split <;> exact ⟨rfl, rfl⟩
  have hup : ∀ s : St, (updateUpper s).1.known = s.known ∧ (updateUpper s).1.semi = s.semi := fun s => by unfold updateUpper; split <;> exact ⟨rfl, rfl⟩
  have hat : ∀ (k : Dict Mon Rat) (e : Dict Mon (Rat × Mon)) (r : Out) (f : St → Out), r.1.known = k ∧ r.1.semi = e → (∀ s : St, s.known = k ∧ s.semi = e → (f s).1.known = k ∧ (f s).1.semi = e) →
      (andThen r f).1.known = k ∧ (andThen r f).1.semi = e := by
    intro k e r f h hf
    unfold andThen
    split
    · exact hf _ h
    · exact h
  cases c with
  | setValues v lpi o => exact absurd rfl (h1 v lpi o)
  | updateValues v lpi o => exact absurd rfl (h2 v lpi o)
  | setObjective o m =>
    left
    show (setObjective E o m s).1.known = _ ∧ (setObjective E o m s).1.semi = _
    unfold setObjective
    split
    · exact ⟨rfl, rfl⟩
    · dsimp only
      split
      · exact ⟨rfl, rfl⟩
      · split <;> exact ⟨rfl, rfl⟩
  | setLower b =>
    left
    show (setLower E b s).1.known = _ ∧ (setLower E b s).1.semi = _
    unfold setLower
    split
    · exact ⟨rfl, rfl⟩
    · split
      · exact ⟨rfl, rfl⟩
      · apply hat
        · exact hlo _
        · intro s' h'
          rw [(hlo _).1, (hlo _).2]; exact h'
  | setUpper b =>
    left
    show (setUpper E b s).1.known = _ ∧ (setUpper E b s).1.semi = _
    unfold setUpper
    split
    · exact ⟨rfl, rfl⟩
    · split
      · exact ⟨rfl, rfl⟩
      · apply hat
        · exact ⟨rfl, rfl⟩
        · intro s' h'
          rw [(hup _).1, (hup _).2]; exact h'
  | setExtraEq l => exact .inl ⟨rfl, rfl⟩
  | setExtraIneq l => exact .inl ⟨rfl, rfl⟩
  | reset w =>
    cases w with
    | all =>
      right
      refine hat _ _ _ _ (hat _ _ _ _ (hlo _) ?_) ?_
      · intro s' h'; exact h'
      · intro s' h'; exact h'
    | bounds =>
      left
      refine hat _ _ _ _ (hlo _) ?_
      intro s' h'; exact h'
    | lowerbounds => exact .inl (hlo _)
    | upperbounds => exact .inl ⟨rfl, rfl⟩
    | objective => exact .inl ⟨rfl, rfl⟩
    | values => exact .inr ⟨rfl, rfl⟩
  | solve =>
    left
    show (solve E solver s).1.known = _ ∧ (solve E solver s).1.semi = _
    unfold solve
    split <;> exact ⟨rfl, rfl⟩

theorem update_cases (E : Env K) (v : List (K × Option Rat)) (lpi o : Bool) (s : St) (hg : Good s) :
    updateValues E v lpi o s = (s, none) ∨ ∃ s', Good s' ∧ updateValues E v lpi o s = cleanup E s' ∧ s'.lower = s.lower ∧ s'.upper = s.upper ∧ s'.objective = s.objective := by
  unfold updateValues
  split
  · exact .inl rfl
  · exact .inr ⟨preUpdate E v lpi o s, pre_good E v lpi o s hg, rfl, rfl, rfl, rfl⟩

theorem set_cases (E : Env K) (v : List (K × Option Rat)) (lpi o : Bool) (s : St) (hg : Good s) :
    ∃ s', Good s' ∧ setValues E v lpi o s = cleanup E s' ∧ s'.lower = s.lower ∧ s'.upper = s.upper ∧ s'.objective = s.objective := by
  obtain ⟨b, e⟩ := setValues_eq E v lpi o s
  obtain ⟨n1, n2⟩ := valuesOf_nodup E v lpi o
  exact ⟨{ resetValues E s with known := (valuesOf E v lpi o).1, semi := (valuesOf E v lpi o).2, useLpi := b },
    ⟨n1, n2, hg.lower, hg.upper, hg.objective, hg.one⟩, e, rfl, rfl, rfl⟩

/-- The state after construction was reached without exceptions. -/
theorem init_known (E : Env K) (m : Mon) : (init E).semi.get m = none := by
  show (setValues E [] false false (setObjective E none true (blank E)).1).1.semi.get m = none
  obtain ⟨b, e⟩ := setValues_eq E [] false false (setObjective E none true (blank E)).1
  rw [e]
  have hg := setObjective_good E none true _ (blank_good E)
  obtain ⟨n1, n2⟩ := valuesOf_nodup E [] false false
  obtain ⟨lo, up, pr, se, q1, _, _, _, _, q6, _⟩ := cleanup_eq E { resetValues E (setObjective E none true (blank E)).1 with known := (valuesOf E [] false false).1, semi := (valuesOf E [] false false).2, useLpi := b }
    (supportsStep_good E _ ⟨n1, n2, hg.lower, hg.upper, hg.objective, hg.one⟩)
  rw [q1]
  have hnil : ∀ s : St, s.semi = [] → (supportsStep E s).semi = [] := by
    intro s hs; unfold supportsStep; split
    · rfl
    · exact hs
  have h0 := hnil { resetValues E (setObjective E none true (blank E)).1 with known := (valuesOf E [] false false).1, semi := (valuesOf E [] false false).2, useLpi := b } rfl
  show se.get m = none
  rcases q6 with q6 | q6
  · rw [q6, h0]; rfl
  · rw [q6, h0]; rfl

/-- **C27, SDP.** Over every history in which no call raised, no moment is both known and semi-known. -/
theorem C27_sdp_disjoint (E : Env K) (solver : Args → SolverOut) (h : List (Call K)) (hok : Ok E solver h) (m : Mon) :
    (run E solver h).known.get m = none ∨ (run E solver h).semi.get m = none := by
  refine ok_induction E solver (fun s => s.known.get m = none ∨ s.semi.get m = none) (fun _ => True) (.inr (init_known E m)) ?_ h (fun _ _ => trivial) hok
  intro s c hg _ hc hs
  by_cases h1 : ∃ v lpi o, c = .setValues v lpi o
  · obtain ⟨v, lpi, o, rfl⟩ := h1
    obtain ⟨s', hg', e, _⟩ := set_cases E v lpi o s hg
    have hc : (setValues E v lpi o s).2 = none := hc
    show (setValues E v lpi o s).1.known.get m = none ∨ (setValues E v lpi o s).1.semi.get m = none
    rw [e] at hc ⊢
    exact cleanup_disjoint E s' hg' hc m
  · by_cases h2 : ∃ v lpi o, c = .updateValues v lpi o
    · obtain ⟨v, lpi, o, rfl⟩ := h2
      have hc : (updateValues E v lpi o s).2 = none := hc
      show (updateValues E v lpi o s).1.known.get m = none ∨ (updateValues E v lpi o s).1.semi.get m = none
      rcases update_cases E v lpi o s hg with e | ⟨s', hg', e, _⟩
      · rw [e]; exact hs
      · rw [e] at hc ⊢
        exact cleanup_disjoint E s' hg' hc m
    · rcases values_same E solver s c (fun v lpi o e => h1 ⟨v, lpi, o, e⟩) (fun v lpi o e => h2 ⟨v, lpi, o, e⟩) with ⟨e1, e2⟩ | ⟨e1, e2⟩
      · rw [e1, e2]; exact hs
      · right; rw [e2]; rfl

/-- **C27, SDP: false after an exception.** If a value contradicts a bound the call raises half way, and a moment stays both known and semi-known. -/
theorem C27_sdp_overlap_after_error (solver : Args → SolverOut) :
    let E : Env Nat := { exEnv with san := fun k => if k = 0 then [[1], [2]] else [[k]] }
    let c : Call Nat := .setValues [(1, some (1 / 2)), (0, some (-1))] true false
    (call E solver (run E solver []) c).2 = some .valueContradictsBound ∧
    (run E solver [c]).known.get [[1], [2]] = some (-1) ∧ (run E solver [c]).semi.get [[1], [2]] = some (1 / 2, [[2]]) := by
  refine ⟨?_, ?_, ?_⟩
  · simp only [run, List.foldl, call]; decide +kernel
  · simp only [run, List.foldl, call]; decide +kernel
  · simp only [run, List.foldl, call]; decide +kernel

end Verif.SdpState

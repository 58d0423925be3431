import Verif.State.LpSpec
import Verif.Moment.Props
import Mathlib.Tactic.Ring
import Mathlib.Tactic.Linarith
namespace Verif.State
open Verif.Common Verif.Moment

variable {K : Type}

/-! ## Lists of calls -/

theorem run_induction (E : Env K) (solver : Args → SolverOut) (P : LpState → Prop) (h0 : P (init E))
    (hs : ∀ s c, P s → P (step E solver s c)) (h : List (Call K)) : P (run E solver h) := by
  unfold run
  generalize init E = s at h0
  induction h generalizing s with
  | nil => exact h0
  | cons c h ih => exact ih _ (hs s c h0)

theorem run_append (E : Env K) (solver : Args → SolverOut) (h h' : List (Call K)) :
    run E solver (h ++ h') = h'.foldl (step E solver) (run E solver h) := by
  simp [run, List.foldl_append]

theorem fold_induction (E : Env K) (solver : Args → SolverOut) (P : LpState → Prop) (Q : Call K → Prop)
    (hs : ∀ s c, Q c → P s → P (step E solver s c)) (h : List (Call K)) (hq : ∀ c ∈ h, Q c) (s : LpState) (h0 : P s) :
    P (h.foldl (step E solver) s) := by
  induction h generalizing s with
  | nil => exact h0
  | cons c h ih => exact ih (fun c hc => hq c (by simp [hc])) _ (hs s c (hq c (by simp)) h0)

/-! ## Which fields a step touches -/

theorem eqByName_fst (E : Env K) (s : LpState) : ∃ c, (eqByName E s).2 = { s with cachedEq := c } := by
  unfold eqByName
  cases h : s.cachedEq with
  | some c => exact ⟨some c, by simp [← h]⟩
  | none =>
    cases h2 : sparseEq E s with
    | none => exact ⟨none, by simp [← h]⟩
    | some r => exact ⟨_, rfl⟩

theorem ineqByName_fst (E : Env K) (s : LpState) : ∃ c, (ineqByName E s).2 = { s with cachedIneq := c } := by
  unfold ineqByName
  cases h : s.cachedIneq with
  | some c => exact ⟨some c, by simp [← h]⟩
  | none =>
    cases h2 : sparseIneq E s with
    | none => exact ⟨none, by simp [← h]⟩
    | some r => exact ⟨_, rfl⟩

theorem argsByName_fst (E : Env K) (b : Bool) (s : LpState) :
    ∃ c c', (argsByName E b s).2.2 = { s with cachedEq := c, cachedIneq := c' } := by
  obtain ⟨c, hc⟩ := eqByName_fst E s
  obtain ⟨c', hc'⟩ := ineqByName_fst E (eqByName E s).2
  unfold argsByName
  cases b with
  | true =>
    refine ⟨c, c', ?_⟩
    simp only [if_true]
    rw [hc', hc]
  | false =>
    simp only [Bool.false_eq_true, if_false]
    rw [hc', hc]
    exact ⟨_, _, rfl⟩

/-- The part of the state the solver's arguments depend on. -/
theorem solverArgs_congr (E : Env K) (s s' : LpState) (h1 : s.known = s'.known) (h2 : s.semi = s'.semi) (h3 : s.lower = s'.lower) (h4 : s.upper = s'.upper)
    (h5 : s.objective = s'.objective) (h6 : s.extraEq = s'.extraEq) (h7 : s.extraIneq = s'.extraIneq) : solverArgs E s = solverArgs E s' := by
  unfold solverArgs sparseEq sparseIneq
  rw [h1, h2, h3, h4, h5, h6, h7]

/-! ## Assigning values -/

theorem assign_get (E : Env K) (values : List (K × Option Rat)) (d : Dict Mon Rat) (m : Mon) :
    (assignValues E values d).get m = (lastValue E values m).or (d.get m) := by
  unfold assignValues
  induction values generalizing d with
  | nil => simp [lastValue]
  | cons t values ih =>
    obtain ⟨k, v⟩ := t
    rw [List.foldl_cons, ih]
    have hl : lastValue E ((k, v) :: values) m = (lastValue E values m).or (if E.san k = m then v else none) := by
      unfold lastValue
      rw [List.filter_cons]
      by_cases hc : (decide (E.san k = m) && v.isSome) = true
      · rw [if_pos hc]
        simp only [Bool.and_eq_true, decide_eq_true_eq] at hc
        obtain ⟨x, rfl⟩ := Option.isSome_iff_exists.1 hc.2
        rw [if_pos hc.1]
        rcases hF : (values.filter fun t => decide (E.san t.1 = m) && t.2.isSome).getLast? with _ | w
        · rw [List.getLast?_eq_none_iff] at hF
          simp [hF]
        · obtain ⟨ys, hys⟩ := List.getLast?_eq_some_iff.1 hF
          have hw : w.2.isSome = true := by
            have : w ∈ values.filter fun t => decide (E.san t.1 = m) && t.2.isSome := by rw [hys]; simp
            have := (List.mem_filter.1 this).2
            simp only [Bool.and_eq_true] at this
            exact this.2
          obtain ⟨x', hx'⟩ := Option.isSome_iff_exists.1 hw
          rw [hys]
          rw [show (k, some x) :: (ys ++ [w]) = ((k, some x) :: ys) ++ [w] from rfl, List.getLast?_append]
          simp [hx']
      · rw [if_neg hc]
        by_cases e : E.san k = m
        · cases v with
          | none => simp
          | some x => simp [e] at hc
        · simp [e]
    rw [hl]
    cases v with
    | none => simp [ih]
    | some x =>
      rw [get_set]
      by_cases e : E.san k = m
      · simp [e, Option.or_assoc]
      · simp [e]

theorem assign_nodup (E : Env K) (values : List (K × Option Rat)) (d : Dict Mon Rat) (h : d.keys.Nodup) : (assignValues E values d).keys.Nodup := by
  unfold assignValues
  induction values generalizing d with
  | nil => exact h
  | cons t values ih =>
    rw [List.foldl_cons]
    apply ih
    cases t.2 with
    | none => exact h
    | some v => exact nodup_set _ _ _ h

theorem lastValue_some (E : Env K) (values : List (K × Option Rat)) (m : Mon) (v : Rat) (h : lastValue E values m = some v) :
    ∃ t ∈ values, E.san t.1 = m ∧ t.2 = some v := by
  unfold lastValue at h
  rcases hF : (values.filter fun t => decide (E.san t.1 = m) && t.2.isSome).getLast? with _ | w
  · rw [hF] at h; simp at h
  · rw [hF] at h
    obtain ⟨ys, hys⟩ := List.getLast?_eq_some_iff.1 hF
    have hw : w ∈ values.filter fun t => decide (E.san t.1 = m) && t.2.isSome := by rw [hys]; simp
    have := List.mem_filter.1 hw
    simp only [Bool.and_eq_true, decide_eq_true_eq] at this
    exact ⟨w, this.1, this.2.1, by simpa using h⟩

theorem atomicKnowns_get (d : Dict Mon Rat) (a : Atom) : (atomicKnowns d).get a = d.get [a] := by
  unfold atomicKnowns
  induction d with
  | nil => rfl
  | cons t d ih =>
    obtain ⟨m, v⟩ := t
    rw [get_cons, List.filterMap_cons]
    rcases m with _ | ⟨b, _ | ⟨c, m⟩⟩
    · simpa using ih
    · simp only [get_cons, ih]
      simp
    · simpa using ih

/-! ## The evaluation loop -/

theorem evalMon_eq (E : Env K) (at' : Dict Atom Rat) (lpi : Bool) (st : Dict Mon Rat × Dict Mon (Rat × Mon)) (m : Mon) :
    (∀ k, (evalMon E at' lpi st m).1.get k =
      if m = k ∧ (evaluate (compound E.info m) at'.get lpi).2.2 = .known then some (evaluate (compound E.info m) at'.get lpi).1 else st.1.get k) ∧
    (∀ k, (evalMon E at' lpi st m).2.get k =
      if m = k ∧ (evaluate (compound E.info m) at'.get lpi).2.2 = .semi ∧ lpi = true then
        some ((evaluate (compound E.info m) at'.get lpi).1, sortBy atomLe (evaluate (compound E.info m) at'.get lpi).2.1) else st.2.get k) := by
  unfold evalMon
  generalize evaluate (compound E.info m) at'.get lpi = r
  obtain ⟨v, rest, stt⟩ := r
  cases stt with
  | known => constructor <;> intro k <;> simp [get_set]
  | unknown => constructor <;> intro k <;> simp
  | semi =>
    cases lpi with
    | true => constructor <;> intro k <;> simp [get_set]
    | false => constructor <;> intro k <;> simp

theorem evalLoop_eq (E : Env K) (at' : Dict Atom Rat) (lpi : Bool) (ms : List Mon) (st : Dict Mon Rat × Dict Mon (Rat × Mon)) :
    (∀ k, (ms.foldl (evalMon E at' lpi) st).1.get k =
      if k ∈ ms ∧ (evaluate (compound E.info k) at'.get lpi).2.2 = .known then some (evaluate (compound E.info k) at'.get lpi).1 else st.1.get k) ∧
    (∀ k, (ms.foldl (evalMon E at' lpi) st).2.get k =
      if k ∈ ms ∧ (evaluate (compound E.info k) at'.get lpi).2.2 = .semi ∧ lpi = true then
        some ((evaluate (compound E.info k) at'.get lpi).1, sortBy atomLe (evaluate (compound E.info k) at'.get lpi).2.1) else st.2.get k) := by
  induction ms generalizing st with
  | nil => simp
  | cons m ms ih =>
    rw [List.foldl_cons]
    obtain ⟨i1, i2⟩ := ih (evalMon E at' lpi st m)
    obtain ⟨e1, e2⟩ := evalMon_eq E at' lpi st m
    refine ⟨fun k => ?_, fun k => ?_⟩
    · rw [i1 k, e1 k]
      by_cases h1 : k ∈ ms
      · by_cases h2 : (evaluate (compound E.info k) at'.get lpi).2.2 = .known
        · simp [h1, h2]
        · by_cases h3 : m = k
          · subst h3; simp [h2]
          · simp [h2, h3]
      · by_cases h3 : m = k
        · subst h3; simp [h1]
        · have : ¬ k = m := fun e => h3 e.symm
          simp [h1, h3, this]
    · rw [i2 k, e2 k]
      by_cases h1 : k ∈ ms
      · by_cases h2 : (evaluate (compound E.info k) at'.get lpi).2.2 = .semi ∧ lpi = true
        · rw [if_pos ⟨h1, h2⟩, if_pos ⟨by simp [h1], h2⟩]
        · by_cases h3 : m = k
          · subst h3; simp [h2]
          · simp [h2, h3]
      · by_cases h3 : m = k
        · subst h3; simp [h1]
        · have : ¬ k = m := fun e => h3 e.symm
          simp [h1, h3, this]

theorem evalLoop_nodup (E : Env K) (at' : Dict Atom Rat) (lpi : Bool) (ms : List Mon) (st : Dict Mon Rat × Dict Mon (Rat × Mon))
    (h1 : st.1.keys.Nodup) (h2 : st.2.keys.Nodup) :
    (ms.foldl (evalMon E at' lpi) st).1.keys.Nodup ∧ (ms.foldl (evalMon E at' lpi) st).2.keys.Nodup := by
  induction ms generalizing st with
  | nil => exact ⟨h1, h2⟩
  | cons m ms ih =>
    rw [List.foldl_cons]
    apply ih
    · unfold evalMon
      generalize evaluate (compound E.info m) at'.get lpi = r
      obtain ⟨v, rest, stt⟩ := r
      cases stt <;> simp only
      · exact nodup_set _ _ _ h1
      · split <;> exact h1
      · exact h1
    · unfold evalMon
      generalize evaluate (compound E.info m) at'.get lpi = r
      obtain ⟨v, rest, stt⟩ := r
      cases stt <;> simp only
      · exact h2
      · split
        · exact nodup_set _ _ _ h2
        · exact h2
      · exact h2

end Verif.State

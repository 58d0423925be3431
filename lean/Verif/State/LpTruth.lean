import Verif.State.LpValues
/-
C27, C48: consistency and truth of the recorded values over all call histories.
-/
namespace Verif.State
open Verif.Common Verif.Moment

variable {K : Type}

/-- Calls that do not set values leave both dictionaries alone or reset them. -/
theorem step_values (E : Env K) (solver : Args → SolverOut) (s : LpState) (c : Call K) :
    (∃ v lpi o, c = .setValues v lpi o) ∨ (∃ v lpi o, c = .updateValues v lpi o) ∨
    ((step E solver s c).known = s.known ∧ (step E solver s c).semi = s.semi) ∨
    ((step E solver s c).known = [(one, 1)] ∧ (step E solver s c).semi = []) := by
  cases c with
  | setValues v lpi o => exact .inl ⟨v, lpi, o, rfl⟩
  | updateValues v lpi o => exact .inr (.inl ⟨v, lpi, o, rfl⟩)
  | setObjective o m => cases o <;> exact .inr (.inr (.inl ⟨rfl, rfl⟩))
  | setLower b =>
    refine .inr (.inr (.inl ?_))
    show (setLower E b s).known = s.known ∧ (setLower E b s).semi = s.semi
    unfold setLower
    split
    · exact ⟨rfl, rfl⟩
    · split <;> exact ⟨rfl, rfl⟩
  | setUpper b =>
    refine .inr (.inr (.inl ?_))
    show (setUpper E b s).known = s.known ∧ (setUpper E b s).semi = s.semi
    unfold setUpper
    split
    · exact ⟨rfl, rfl⟩
    · split <;> exact ⟨rfl, rfl⟩
  | setExtraEq l => exact .inr (.inr (.inl ⟨rfl, rfl⟩))
  | setExtraIneq l => exact .inr (.inr (.inl ⟨rfl, rfl⟩))
  | reset w =>
    cases w with
    | values => exact .inr (.inr (.inr ⟨rfl, rfl⟩))
    | all => exact .inr (.inr (.inr ⟨rfl, rfl⟩))
    | bounds => exact .inr (.inr (.inl ⟨rfl, rfl⟩))
    | lowerbounds => exact .inr (.inr (.inl ⟨rfl, rfl⟩))
    | upperbounds => exact .inr (.inr (.inl ⟨rfl, rfl⟩))
    | objective => exact .inr (.inr (.inl ⟨rfl, rfl⟩))
  | solve =>
    refine .inr (.inr (.inl ?_))
    show (solve E solver s).known = s.known ∧ (solve E solver s).semi = s.semi
    unfold solve
    split <;> exact ⟨rfl, rfl⟩
  | readEqByName =>
    obtain ⟨c, hc⟩ := eqByName_fst E s
    refine .inr (.inr (.inl ?_))
    show (eqByName E s).2.known = s.known ∧ (eqByName E s).2.semi = s.semi
    rw [hc]; exact ⟨rfl, rfl⟩
  | readIneqByName =>
    obtain ⟨c, hc⟩ := ineqByName_fst E s
    refine .inr (.inr (.inl ?_))
    show (ineqByName E s).2.known = s.known ∧ (ineqByName E s).2.semi = s.semi
    rw [hc]; exact ⟨rfl, rfl⟩
  | prepareArguments b =>
    obtain ⟨c, c', hc⟩ := argsByName_fst E b s
    refine .inr (.inr (.inl ?_))
    show (argsByName E b s).2.2.known = s.known ∧ (argsByName E b s).2.2.semi = s.semi
    rw [hc]; exact ⟨rfl, rfl⟩

/-- Setting values ends in the clean-up, or does nothing. -/
theorem update_ends (E : Env K) (v : List (K × Option Rat)) (lpi o : Bool) (s : LpState) :
    updateValues E v lpi o s = s ∨ ∃ t, updateValues E v lpi o s = cleanup E t := by
  unfold updateValues
  split
  · exact .inl rfl
  · dsimp only
    split
    · exact .inr ⟨_, rfl⟩
    · exact .inr ⟨_, rfl⟩

theorem setValues_ends (E : Env K) (v : List (K × Option Rat)) (lpi o : Bool) (s : LpState) : ∃ t, setValues E v lpi o s = cleanup E t := by
  unfold setValues updateValues
  dsimp only
  split
  · exact ⟨_, rfl⟩
  · split
    · exact ⟨_, rfl⟩
    · exact ⟨_, rfl⟩

/-- **C27.** After any history of calls no moment is both known and semi-known. -/
theorem C27_disjoint (E : Env K) (solver : Args → SolverOut) (h : List (Call K)) (m : Mon) :
    ¬ ((∃ v, (run E solver h).known.get m = some v) ∧ ∃ t, (run E solver h).semi.get m = some t) := by
  rw [← mem_keys, ← mem_keys]
  refine run_induction E solver (fun s => ¬ (m ∈ s.known.keys ∧ m ∈ s.semi.keys)) ?_ ?_ h
  · exact cleanup_disjoint E _ m
  · intro s c hs
    rcases step_values E solver s c with ⟨v, lpi, o, rfl⟩ | ⟨v, lpi, o, rfl⟩ | ⟨h1, h2⟩ | ⟨h1, h2⟩
    · obtain ⟨t, ht⟩ := setValues_ends E v lpi o s
      show ¬ (m ∈ (setValues E v lpi o s).known.keys ∧ m ∈ (setValues E v lpi o s).semi.keys)
      rw [ht]
      exact cleanup_disjoint E t m
    · show ¬ (m ∈ (updateValues E v lpi o s).known.keys ∧ m ∈ (updateValues E v lpi o s).semi.keys)
      rcases update_ends E v lpi o s with ht | ⟨t, ht⟩
      · rw [ht]; exact hs
      · rw [ht]; exact cleanup_disjoint E t m
    · rw [h1, h2]; exact hs
    · rw [h2]; simp [Dict.keys]

/-- How `update_values` changes the known values, for problems that are not about supports. -/
theorem update_known (E : Env K) (hE : E.supports = false) (v : List (K × Option Rat)) (lpi o : Bool) (s : LpState) (hg : Good s) (m : Mon) (x : Rat)
    (hx : (updateValues E v lpi o s).known.get m = some x) :
    (s.known.get m = some x ∨ (∃ t ∈ v, E.san t.1 = m ∧ t.2 = some x)) ∨
    (2 ≤ m.length ∧ m ∈ E.monomials ∧ (evaluate (compound E.info m) (fun a => (assignValues E v s.known).get [a]) lpi).2.2 = .known ∧
      x = (evaluate (compound E.info m) (fun a => (assignValues E v s.known).get [a]) lpi).1) := by
  unfold updateValues at hx
  have base : ∀ y, (assignValues E v s.known).get m = some y → s.known.get m = some y ∨ (∃ t ∈ v, E.san t.1 = m ∧ t.2 = some y) := by
    intro y hy
    rw [assign_get] at hy
    rcases hl : lastValue E v m with _ | z
    · rw [hl] at hy; exact .inl (by simpa using hy)
    · rw [hl] at hy
      have : z = y := by simpa using hy
      subst this
      exact .inr (lastValue_some E v m z hl)
  split at hx
  · exact .inl (.inl hx)
  · dsimp only at hx
    split at hx
    · rw [cleanup_known_ns E hE] at hx
      exact .inl (base x hx)
    · rw [cleanup_known_ns E hE] at hx
      dsimp only at hx
      rw [(evalLoop_eq E _ lpi _ _).1 m] at hx
      have hget : (atomicKnowns (assignValues E v (resetSolution s).known)).get = fun a => (assignValues E v s.known).get [a] :=
        funext fun a => atomicKnowns_get _ _
      rw [hget] at hx
      split at hx
      · rename_i hc
        refine .inr ⟨?_, ?_, hc.2, by simpa using hx.symm⟩
        · have h2 := hc.1
          have hat : (compound E.info m).isAtomic = decide (m.length ≤ 1) := by
            show decide ((sortBy atomLe m).length ≤ 1) = _
            rw [(sortBy_perm atomLe m).length_eq]
          unfold remainingMons at h2
          have : (!(compound E.info m).isAtomic) = true := by
            split at h2
            · split at h2
              · simpa using (Bool.and_eq_true_iff.1 (List.mem_filter.1 h2).2).1
              · simpa using (Bool.and_eq_true_iff.1 (List.mem_filter.1 h2).2).1
            · exact (List.mem_filter.1 h2).2
          rw [hat] at this
          simp at this
          omega
        · have h2 := hc.1
          unfold remainingMons at h2
          split at h2
          · split at h2
            · exact (List.mem_filter.1 h2).1
            · exact (List.mem_filter.1 h2).1
          · exact (List.mem_filter.1 h2).1
      · have hnd := assign_nodup E v s.known hg.known
        have := (get_filter (assignValues E v s.known) (fun t => decide (t.1 ∈ E.monomials)) hnd m x).1 hx
        exact .inl (base x this.1)

/-- How `update_values` changes the semi-known relations. -/
theorem update_semi (E : Env K) (hE : E.supports = false) (v : List (K × Option Rat)) (lpi o : Bool) (s : LpState) (hg : Good s) (m : Mon) (x : Rat) (m2 : Mon)
    (hx : (updateValues E v lpi o s).semi.get m = some (x, m2)) :
    s.semi.get m = some (x, m2) ∨
    (m ∈ E.monomials ∧ lpi = true ∧
      x = (evaluate (compound E.info m) (fun a => (assignValues E v s.known).get [a]) lpi).1 ∧
      m2 = sortBy atomLe (evaluate (compound E.info m) (fun a => (assignValues E v s.known).get [a]) lpi).2.1) := by
  unfold updateValues at hx
  split at hx
  · exact .inl hx
  · dsimp only at hx
    have hnd := assign_nodup E v s.known hg.known
    split at hx
    · rw [cleanup_semi_get E hE _ (by exact hg.semi)] at hx
      split at hx
      · simp at hx
      · exact .inl hx
    · rw [cleanup_semi_get E hE _ (by exact (evalLoop_nodup E _ lpi _ _ (nodup_filter _ _ hnd) hg.semi).2)] at hx
      split at hx
      · simp at hx
      · dsimp only at hx
        rw [(evalLoop_eq E _ lpi _ _).2 m] at hx
        have hget : (atomicKnowns (assignValues E v (resetSolution s).known)).get = fun a => (assignValues E v s.known).get [a] :=
          funext fun a => atomicKnowns_get _ _
        rw [hget] at hx
        split at hx
        · rename_i hc
          simp only [Option.some.injEq, Prod.mk.injEq] at hx
          refine .inr ⟨?_, hc.2.2, hx.1.symm, hx.2.symm⟩
          have h2 := hc.1
          unfold remainingMons at h2
          split at h2
          · split at h2
            · exact (List.mem_filter.1 h2).1
            · exact (List.mem_filter.1 h2).1
          · exact (List.mem_filter.1 h2).1
        · exact .inl hx

/-- A known value survives an update unless it is overwritten or its moment is not part of the problem. -/
theorem update_keeps_one (E : Env K) (hE : E.supports = false) (hone : one ∈ E.monomials) (v : List (K × Option Rat)) (lpi o : Bool) (s : LpState) (hg : Good s)
    (h1 : s.known.get one = some 1) (hv : ∀ t ∈ v, ∀ x, E.san t.1 = one → t.2 = some x → x = 1) : (updateValues E v lpi o s).known.get one = some 1 := by
  have hb : (assignValues E v s.known).get one = some 1 := by
    rw [assign_get]
    rcases hl : lastValue E v one with _ | z
    · simpa using h1
    · obtain ⟨t, ht, e1, e2⟩ := lastValue_some E v one z hl
      rw [hv t ht z e1 e2]
      rfl
  unfold updateValues
  split
  · exact h1
  · dsimp only
    have hnd := assign_nodup E v s.known hg.known
    split
    · rw [cleanup_known_ns E hE]; exact hb
    · rw [cleanup_known_ns E hE]
      dsimp only
      rw [(evalLoop_eq E _ lpi _ _).1 one, if_neg]
      · exact (get_filter (assignValues E v s.known) (fun t => decide (t.1 ∈ E.monomials)) hnd one 1).2 ⟨hb, by simpa using hone⟩
      · rintro ⟨h2, _⟩
        have hat : (compound E.info one).isAtomic = true := rfl
        unfold remainingMons at h2
        split at h2
        · split at h2
          · simp [hat] at h2
          · simp [hat] at h2
        · simp [hat] at h2

/-- **C27, unit.** In problems that are not about supports the unit moment is known with value one after every history of calls that never assigns it another value. -/
theorem C27_unit_known (E : Env K) (hE : E.supports = false) (hone : one ∈ E.monomials) (solver : Args → SolverOut) (h : List (Call K))
    (hv : ∀ c ∈ h, ∀ v lpi o, c = .setValues v lpi o ∨ c = .updateValues v lpi o → ∀ t ∈ v, ∀ x, E.san t.1 = one → t.2 = some x → x = 1) :
    (run E solver h).known.get one = some 1 := by
  have key := fold_induction E solver (fun s => Good s ∧ s.known.get one = some 1)
    (fun c => ∀ v lpi o, c = .setValues v lpi o ∨ c = .updateValues v lpi o → ∀ t ∈ v, ∀ x, E.san t.1 = one → t.2 = some x → x = 1) ?_ h hv (init E) ?_
  · exact key.2
  · rintro s c hq ⟨hg, h1⟩
    refine ⟨step_good E solver s c hg, ?_⟩
    rcases step_values E solver s c with ⟨v, lpi, o, rfl⟩ | ⟨v, lpi, o, rfl⟩ | ⟨h1', _⟩ | ⟨h1', _⟩
    · show (setValues E v lpi o s).known.get one = some 1
      have hr : (resetValues s).known.get one = some 1 := by simp [resetValues, get_cons]
      unfold setValues
      dsimp only
      split
      · rw [cleanup_known_ns E hE]; exact hr
      · exact update_keeps_one E hE hone v lpi o _ (resetValues_good s hg) hr (hq v lpi o (.inl rfl))
    · exact update_keeps_one E hE hone v lpi o s hg h1 (hq v lpi o (.inr rfl))
    · rw [h1']; exact h1
    · rw [h1']; simp [get_cons]
  · refine ⟨init_good E, ?_⟩
    show (cleanup E _).known.get one = some 1
    rw [cleanup_known_ns E hE]
    simp [resetValues, get_cons]

/-- **C27, unit, for support problems: false.** The unit is removed from the known moments. -/
theorem C27_supports_unit_lost (E : Env K) (hE : E.supports = true) : (init E).known.get one = none ∧ (init E).lower.get one = some 1 := by
  have h1 : isClose0 (1 : Rat) = false := by decide +kernel
  constructor
  · show (cleanup E _).known.get one = none
    simp [cleanup, hE, resetValues, h1]
  · show (cleanup E _).lower.get one = some 1
    simp [cleanup, hE, resetValues, h1, get_set]

/-- **C48.** Let `val` be the true values of the atomic moments, all between 0 and 1. If every value the user ever sets is true, then after any history every known moment has its true
value (up to 10⁻⁸ if linearised constraints are used somewhere, exactly otherwise), and every semi-known relation holds for the true values. -/
theorem C48_truth_preserved (E : Env K) (hE : E.supports = false) (solver : Args → SolverOut) (val : Atom → Rat) (h01 : ∀ a, 0 ≤ val a ∧ val a ≤ 1) (ε : Rat) (hε : 0 ≤ ε)
    (h : List (Call K)) (hc : ∀ c ∈ h, c.Agrees E val ε) : Truthful val ε (run E solver h) := by
  have hupd : ∀ (s : LpState) (v : List (K × Option Rat)) (lpi o : Bool), Good s → Truthful val ε s →
      (∀ t ∈ v, ∀ x, t.2 = some x → valM val (E.san t.1) = x) → (lpi = true → 1 / 10 ^ 8 ≤ ε) → Truthful val ε (updateValues E v lpi o s) := by
    intro s v lpi o hg hs hv hl
    have hat : ∀ a x, (assignValues E v s.known).get [a] = some x → val a = x := by
      intro a x hx
      rw [assign_get] at hx
      rcases hlv : lastValue E v [a] with _ | z
      · rw [hlv] at hx
        have := (hs.1 [a] x (by simpa using hx)).2 (by simp)
        simpa [valM] using this
      · rw [hlv] at hx
        have : z = x := by simpa using hx
        subst this
        obtain ⟨t, ht, e1, e2⟩ := lastValue_some E v [a] z hlv
        have := hv t ht z e2
        rw [e1] at this
        simpa [valM] using this
    constructor
    · intro m x hx
      rcases update_known E hE v lpi o s hg m x hx with (h1 | ⟨t, ht, e1, e2⟩) | ⟨h2, _, hk, rfl⟩
      · exact hs.1 m x h1
      · have := hv t ht x e2
        rw [e1] at this
        rw [this]
        simpa using hε
      · refine ⟨?_, fun h3 => by omega⟩
        have hp := C25_known_precision E.info m (fun a => (assignValues E v s.known).get [a]) lpi val hat (fun f _ => h01 f) hk
        cases lpi with
        | true => exact hp.1.trans (hl rfl)
        | false =>
          have hall : ∀ f ∈ m, ((assignValues E v s.known).get [f]).isSome = true := by
            rcases (C25_status E.info m (fun a => (assignValues E v s.known).get [a]) false).1.1 hk with h4 | ⟨h4, _⟩
            · exact h4
            · simp at h4
          rw [valM, hp.2 hall]
          simpa using hε
    · intro m x m2 hx
      rcases update_semi E hE v lpi o s hg m x m2 hx with h1 | ⟨_, _, rfl, rfl⟩
      · exact hs.2 m x m2 h1
      · unfold valM
        rw [((sortBy_perm atomLe _).map val).prod_eq]
        exact C25_evaluate_sound E.info m _ lpi val hat
  have hreset : ∀ s : LpState, Truthful val ε (resetValues s) := by
    intro s
    constructor
    · intro m x hx
      simp only [resetValues, get_cons, get_nil] at hx
      split at hx
      · rename_i hm
        simp only [Option.some.injEq] at hx
        subst hx
        rw [← hm]
        simpa [valM, one] using hε
      · simp at hx
    · intro m c m2 hx
      simp [resetValues] at hx
  have hclean : ∀ s : LpState, Good s → Truthful val ε s → Truthful val ε (cleanup E s) := by
    intro s hg hs
    constructor
    · intro m x hx
      rw [cleanup_known_ns E hE] at hx
      exact hs.1 m x hx
    · intro m c m2 hx
      rw [cleanup_semi_get E hE s hg.semi] at hx
      split at hx
      · simp at hx
      · exact hs.2 m c m2 hx
  have key := fold_induction E solver (fun s => Good s ∧ Truthful val ε s) (fun c => c.Agrees E val ε) ?_ h hc (init E) ?_
  · exact key.2
  · rintro s c hq ⟨hg, hs⟩
    refine ⟨step_good E solver s c hg, ?_⟩
    rcases step_values E solver s c with ⟨v, lpi, o, rfl⟩ | ⟨v, lpi, o, rfl⟩ | ⟨h1, h2⟩ | ⟨h1, h2⟩
    · show Truthful val ε (setValues E v lpi o s)
      unfold setValues
      dsimp only
      split
      · exact hclean _ (resetValues_good s hg) (hreset s)
      · exact hupd _ v lpi o (resetValues_good s hg) (hreset s) hq.1 hq.2
    · exact hupd s v lpi o hg hs hq.1 hq.2
    · unfold Truthful; rw [h1, h2]; exact hs
    · unfold Truthful; rw [h1, h2]
      exact hreset s
  · exact ⟨init_good E, hclean _ (resetValues_good _ ⟨by simp [setObjective, resetObjective, resetSolution, setUpper, resetUpper, setLower, resetLower, Dict.keys],
      by simp [setObjective, resetObjective, resetSolution, setUpper, resetUpper, setLower, resetLower, Dict.keys],
      by simp [setObjective, resetObjective, resetSolution, setUpper, resetUpper, setLower, resetLower, Dict.keys],
      by simp [setObjective, resetObjective, resetSolution, setUpper, resetUpper, setLower, resetLower, Dict.keys]⟩) (hreset _)⟩

/-- **C48 fails if values are changed by `update_values`.** A semi-known relation computed from an old value of an atom is kept when that atom's value is changed by a call without linearised
constraints: after updating P(a) from 1/2 to 1/4, the problem still contains P(a)P(b) = 1/2 P(b). -/
theorem C48_stale_semiknown :
    ∃ (E : Env Nat) (h : List (Call Nat)), E.supports = false ∧ ∀ solver,
      (run E solver h).known.get [[1]] = some (1 / 4) ∧ (run E solver h).semi.get [[1], [2]] = some (1 / 2, [[2]]) := by
  refine ⟨⟨⟨fun a => decide (a = [1]), fun _ => false, fun _ => false, fun _ => "a"⟩, fun k => [[k]], [[], [[1]], [[2]], [[1], [2]]], false, [], []⟩,
    [.setValues [(1, some (1 / 2))] true false, .updateValues [(1, some (1 / 4))] false false], rfl, ?_⟩
  intro solver
  simp only [run, List.foldl, step]
  decide +kernel

/-! Non-vacuity: a problem with two atoms, one of them knowable. -/
def exEnv : Env Nat :=
  ⟨⟨fun a => decide (a = [1]), fun _ => false, fun _ => false, fun a => "P" ++ toString a⟩, fun k => [[k]], [[], [[1]], [[2]], [[1], [1]], [[1], [2]]], false, [], []⟩

example : one ∈ exEnv.monomials ∧ (∀ t ∈ [(1, some (1 / 2 : Rat))], ∃ a, exEnv.san t.1 = [a]) ∧
    (setValues exEnv [(1, some (1 / 2))] true false (init exEnv)).known = [([], 1), ([[1]], 1 / 2), ([[1], [1]], 1 / 4)] ∧
    (setValues exEnv [(1, some (1 / 2))] true false (init exEnv)).semi = [([[1], [2]], 1 / 2, [[2]])] := by
  refine ⟨by decide, by simp [exEnv], by decide +kernel, by decide +kernel⟩

example : (Call.setValues [(1, some (1 / 2))] true false : Call Nat).Agrees exEnv (fun _ => 1 / 2) (1 / 10 ^ 8) := by
  refine ⟨?_, fun _ => le_refl _⟩
  intro t ht x hx
  simp only [List.mem_singleton] at ht
  subst ht
  simp only [Option.some.injEq] at hx
  rw [← hx]
  simp [valM, exEnv]

end Verif.State

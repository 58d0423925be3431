import Verif.State.LpInv
/-
C26, C27 (and C48): values recorded by `InflationLP`.
-/
namespace Verif.State
open Verif.Common Verif.Moment

variable {K : Type}

/-- **C26.** Whatever was done before, setting values leaves known moments, semi-known moments and extra constraints that depend on the call alone. -/
theorem C26_no_trace (E : Env K) (solver : Args → SolverOut) (h h' : List (Call K)) (v : List (K × Option Rat)) (lpi o : Bool) :
    let s := run E solver (h ++ [.setValues v lpi o])
    let s' := run E solver (h' ++ [.setValues v lpi o])
    s.known = s'.known ∧ s.semi = s'.semi ∧ s.extraEq = s'.extraEq ∧ s.extraIneq = s'.extraIneq ∧ s.result = .notSolved ∧
    (E.supports = false → s.lower = (run E solver h).lower) ∧ s.upper = (run E solver h).upper ∧ s.objective = (run E solver h).objective ∧
    s.maximize = (run E solver h).maximize := by
  intro s s'
  have e : s = setValues E v lpi o (run E solver h) := by simp [s, run_append, step]
  have e' : s' = setValues E v lpi o (run E solver h') := by simp [s', run_append, step]
  rw [e, e']
  generalize run E solver h = t
  generalize run E solver h' = t'
  unfold setValues updateValues cleanup
  cases hv : v.isEmpty <;> cases o <;> cases hE : E.supports <;> simp [resetValues, resetSolution]

/-- **C26 for support problems: false.** Lower bounds from an earlier distribution stay in force: two histories ending in the same call leave different problems. -/
theorem C26_support_bounds_accumulate :
    ∃ (E : Env Nat) (v w : List (Nat × Option Rat)), ∀ solver,
      (run E solver [.setValues v false false, .setValues w false false]).lower.get [[7]] = some 1 ∧
      (run E solver [.setValues w false false]).lower.get [[7]] = none ∧
      (run E solver [.setValues w false false]).known.get [[7]] = some 0 := by
  refine ⟨⟨⟨fun _ => true, fun _ => false, fun _ => false, fun _ => "a"⟩, fun k => [[k]], [[], [[7]]], true, [], []⟩, [(7, some 1)], [(7, some 0)], ?_⟩
  intro solver
  simp only [run, List.foldl, step]
  decide +kernel

/-- The products of atoms that setting values for atoms makes known or semi-known. -/
theorem setValues_atoms (E : Env K) (hE : E.supports = false) (solver : Args → SolverOut) (h : List (Call K)) (v : List (K × Option Rat)) (lpi : Bool)
    (hv : v ≠ []) (hat : ∀ t ∈ v, ∃ a, E.san t.1 = [a]) (hone : one ∈ E.monomials) :
    let s := run E solver (h ++ [.setValues v lpi false])
    let A := fun a => lastValue E v [a]
    (∀ m, s.known.get m = if m ∈ E.monomials then
        (if m.length ≤ 1 then (if ∀ a ∈ m, (A a).isSome = true then some (m.map fun a => (A a).getD 0).prod else none)
         else if (evaluate (compound E.info m) A lpi).2.2 = .known ∧ m ∈ remainingMons E (atomicKnowns (assignValues E v [(one, 1)])) lpi
           then some (evaluate (compound E.info m) A lpi).1 else none) else none) ∧
    (∀ m, s.semi.get m = if m ∈ remainingMons E (atomicKnowns (assignValues E v [(one, 1)])) lpi ∧ (evaluate (compound E.info m) A lpi).2.2 = .semi ∧ lpi = true then
        some ((evaluate (compound E.info m) A lpi).1, sortBy atomLe (evaluate (compound E.info m) A lpi).2.1) else none) ∧
    (∀ a, (atomicKnowns (assignValues E v [(one, 1)])).get a = A a) := by
  intro s A
  have e : s = setValues E v lpi false (run E solver h) := by simp [s, run_append, step]
  have hve : v.isEmpty = false := by cases v <;> simp_all
  have hA : ∀ a, (atomicKnowns (assignValues E v [(one, 1)])).get a = A a := by
    intro a
    rw [atomicKnowns_get, assign_get]
    simp [A, get_cons, one]
  have hAf : (atomicKnowns (assignValues E v [(one, 1)])).get = A := funext hA
  set at' := atomicKnowns (assignValues E v [(one, 1)]) with hat'
  have hs : s = cleanup E { { resetSolution (resetValues (run E solver h)) with useLpi := lpi } with
      known := ((remainingMons E at' lpi).foldl (evalMon E at' lpi) ((assignValues E v [(one, 1)]).filter fun t => decide (t.1 ∈ E.monomials), [])).1
      semi := ((remainingMons E at' lpi).foldl (evalMon E at' lpi) ((assignValues E v [(one, 1)]).filter fun t => decide (t.1 ∈ E.monomials), [])).2 } := by
    rw [e]
    unfold setValues updateValues
    simp only [hve, Bool.false_eq_true, if_false]
    rfl
  obtain ⟨l1, l2⟩ := evalLoop_eq E at' lpi (remainingMons E at' lpi) ((assignValues E v [(one, 1)]).filter fun t => decide (t.1 ∈ E.monomials), [])
  have hnd : (assignValues E v [(one, 1)]).keys.Nodup := assign_nodup E v _ (by simp [Dict.keys])
  -- everything in `remaining` has at least two factors
  have hrem : ∀ m, m ∈ remainingMons E at' lpi → m ∈ E.monomials ∧ 2 ≤ m.length := by
    intro m hm
    have hatm : (compound E.info m).isAtomic = decide (m.length ≤ 1) := by
      show decide ((sortBy atomLe m).length ≤ 1) = _
      rw [(sortBy_perm atomLe m).length_eq]
    unfold remainingMons at hm
    split at hm
    · split at hm
      · rw [List.mem_filter] at hm
        simp only [Bool.and_eq_true, hatm, Bool.not_eq_true', decide_eq_false_iff_not] at hm
        exact ⟨hm.1, by omega⟩
      · rw [List.mem_filter] at hm
        simp only [Bool.and_eq_true, hatm, Bool.not_eq_true', decide_eq_false_iff_not] at hm
        exact ⟨hm.1, by omega⟩
    · rw [List.mem_filter] at hm
      simp only [hatm, Bool.not_eq_true', decide_eq_false_iff_not] at hm
      exact ⟨hm.1, by omega⟩
  -- the values present before the evaluation loop
  have hbase : ∀ m, Dict.get ((assignValues E v [(one, 1)]).filter fun t => decide (t.1 ∈ E.monomials)) m =
      if m ∈ E.monomials then (if m.length ≤ 1 then (if ∀ a ∈ m, (A a).isSome = true then some (m.map fun a => (A a).getD 0).prod else none) else none) else none := by
    intro m
    have hg : (assignValues E v [(one, 1)]).get m = (if m.length ≤ 1 then (if ∀ a ∈ m, (A a).isSome = true then some (m.map fun a => (A a).getD 0).prod else none) else none) := by
      rw [assign_get]
      have hl0 : ¬ (∃ a, m = [a]) → lastValue E v m = none := by
        intro hn
        rcases hlv : lastValue E v m with _ | x
        · rfl
        · obtain ⟨t, ht, hm, _⟩ := lastValue_some E v m x hlv
          obtain ⟨a, ha⟩ := hat t ht
          exact absurd ⟨a, by rw [← hm, ha]⟩ hn
      rcases m with _ | ⟨a, _ | ⟨b, m⟩⟩
      · rw [hl0 (by simp)]
        simp [get_cons, one]
      · simp only [get_cons, one, List.length_singleton, le_refl, if_true, List.mem_singleton, forall_eq, List.map_cons, List.map_nil, List.prod_cons,
          List.prod_nil, mul_one]
        rcases hl : lastValue E v [a] with _ | x
        · simp [A, hl]
        · simp [A, hl]
      · rw [hl0 (by simp)]
        simp [get_cons, one]
    rcases hgf : Dict.get ((assignValues E v [(one, 1)]).filter fun t => decide (t.1 ∈ E.monomials)) m with _ | x
    · by_cases hm : m ∈ E.monomials
      · rw [if_pos hm, ← hg]
        rcases hx : (assignValues E v [(one, 1)]).get m with _ | y
        · rfl
        · have := (get_filter _ (fun t => decide (t.1 ∈ E.monomials)) hnd m y).2 ⟨hx, by simp [hm]⟩
          rw [hgf] at this; simp at this
      · rw [if_neg hm]
    · have := (get_filter _ (fun t => decide (t.1 ∈ E.monomials)) hnd m x).1 hgf
      have hm : m ∈ E.monomials := by simpa using this.2
      rw [if_pos hm, ← hg, this.1]
  have hknown : ∀ m, s.known.get m = if m ∈ E.monomials then
        (if m.length ≤ 1 then (if ∀ a ∈ m, (A a).isSome = true then some (m.map fun a => (A a).getD 0).prod else none)
         else if (evaluate (compound E.info m) A lpi).2.2 = .known ∧ m ∈ remainingMons E at' lpi
           then some (evaluate (compound E.info m) A lpi).1 else none) else none := by
    intro m
    rw [hs, cleanup_known_ns E hE]
    simp only
    rw [l1 m, hAf, hbase m]
    by_cases hm : m ∈ remainingMons E at' lpi
    · have := hrem m hm
      have h1 : ¬ m.length ≤ 1 := by omega
      simp only [hm, true_and, this.1, h1, if_true, if_false, and_true]
    · by_cases hM : m ∈ E.monomials
      · simp [hm, hM]
      · simp [hm, hM]
  refine ⟨hknown, ?_, hA⟩
  intro m
  rw [hs, cleanup_semi_get E hE _ (by
    exact (evalLoop_nodup E at' lpi _ _ (nodup_filter _ _ hnd) (by simp [Dict.keys])).2)]
  simp only
  rw [l2 m, hAf]
  by_cases hm : m ∈ remainingMons E at' lpi ∧ (evaluate (compound E.info m) A lpi).2.2 = .semi ∧ lpi = true
  · have h1 := hrem m hm.1
    rw [if_pos hm, if_pos hm]
    apply if_neg
    intro hk
    have hkn := hknown m
    rw [hs, cleanup_known_ns E hE] at hkn
    rw [mem_keys] at hk
    obtain ⟨x, hx⟩ := hk
    simp only at hkn
    rw [hkn] at hx
    rw [if_pos h1.1, if_neg (by omega : ¬ m.length ≤ 1)] at hx
    simp [hm.2.1] at hx
  · rw [if_neg hm]
    split <;> rfl

/-- **C26, without linearised constraints: exactly these values.** After setting values for atomic moments (this is what `set_distribution` does), a moment of the problem is known
exactly when every one of its factors has been given a value, and its recorded value is the product of the last ones given; nothing is semi-known. -/
theorem C26_known_values (E : Env K) (hE : E.supports = false) (solver : Args → SolverOut) (h : List (Call K)) (v : List (K × Option Rat))
    (hv : v ≠ []) (hat : ∀ t ∈ v, ∃ a, E.san t.1 = [a]) (hone : one ∈ E.monomials) (m : Mon) :
    let s := run E solver (h ++ [.setValues v false false])
    (∀ x, s.known.get m = some x ↔ m ∈ E.monomials ∧ (∀ a ∈ m, (lastValue E v [a]).isSome = true) ∧ x = (m.map fun a => (lastValue E v [a]).getD 0).prod) ∧
    s.semi = [] := by
  intro s
  obtain ⟨hk, hsm, hA⟩ := setValues_atoms E hE solver h v false hv hat hone
  have hAf : (atomicKnowns (assignValues E v [(one, 1)])).get = fun a => lastValue E v [a] := funext hA
  constructor
  · intro x
    have hkm := hk m
    simp only at hkm
    change s.known.get m = _ at hkm
    rw [hkm]
    by_cases hM : m ∈ E.monomials
    · rw [if_pos hM]
      by_cases hl : m.length ≤ 1
      · rw [if_pos hl]
        by_cases ha : ∀ a ∈ m, (lastValue E v [a]).isSome = true
        · simp only [if_pos ha, Option.some.injEq, hM, true_and]
          exact ⟨fun h => ⟨ha, h.symm⟩, fun h => h.2.symm⟩
        · simp [ha]
      · rw [if_neg hl]
        have hst := (C25_status E.info m (fun a => lastValue E v [a]) false).1
        have hev := (evaluate_eq E.info m (fun a => lastValue E v [a]) false).1
        by_cases ha : ∀ a ∈ m, (lastValue E v [a]).isSome = true
        · have hex : ∃ a ∈ m, ((atomicKnowns (assignValues E v [(one, 1)])).get a).isSome = true := by
            rcases m with _ | ⟨a, m⟩
            · simp at hl
            · exact ⟨a, by simp, by rw [hA]; exact ha a (by simp)⟩
          have hr : m ∈ remainingMons E (atomicKnowns (assignValues E v [(one, 1)])) false :=
            (mem_remaining E _ false m hex (.inr fun a h' => by rw [hA]; exact ha a h')).2 ⟨hM, by omega⟩
          rw [if_pos ⟨hst.2 (.inl ha), hr⟩, hev]
          have hf : (m.filter fun f => (lastValue E v [f]).isSome) = m := List.filter_eq_self.2 ha
          rw [hf]
          simp only [Option.some.injEq, hM, true_and]
          exact ⟨fun h => ⟨ha, h.symm⟩, fun h => h.2.symm⟩
        · rw [if_neg]
          · simp [ha]
          · rintro ⟨h1, _⟩
            rcases hst.1 h1 with h2 | ⟨h2, _⟩
            · exact ha h2
            · simp at h2
    · simp [hM]
  · have : ∀ k, s.semi.get k = none := by
      intro k
      have := hsm k
      simpa using this
    rcases hs : s.semi with _ | ⟨⟨a, b⟩, d⟩
    · rfl
    · have := this a
      rw [hs, get_cons] at this
      simp at this

/-- **C26, with linearised constraints: exactly these values.** A moment of the problem is known when all its factors have values, or when some have and their product is
within 10⁻⁸ of zero; it is semi-known when some but not all have, the product of those being the coefficient, and the remaining ones (sorted) the other moment. -/
theorem C26_semiknown_values (E : Env K) (hE : E.supports = false) (solver : Args → SolverOut) (h : List (Call K)) (v : List (K × Option Rat))
    (hv : v ≠ []) (hat : ∀ t ∈ v, ∃ a, E.san t.1 = [a]) (hone : one ∈ E.monomials) (m : Mon) :
    let s := run E solver (h ++ [.setValues v true false])
    let A := fun a => lastValue E v [a]
    let c := ((m.filter fun a => (A a).isSome).map fun a => (A a).getD 0).prod
    (∀ x, s.known.get m = some x ↔ m ∈ E.monomials ∧ x = c ∧
      ((∀ a ∈ m, (A a).isSome = true) ∨ ((∃ a ∈ m, (A a).isSome = true) ∧ (∃ a ∈ m, A a = none) ∧ |c| ≤ 1 / 10 ^ 8))) ∧
    (∀ x m2, s.semi.get m = some (x, m2) ↔ m ∈ E.monomials ∧ (∃ a ∈ m, (A a).isSome = true) ∧ (∃ a ∈ m, A a = none) ∧ 1 / 10 ^ 8 < |c| ∧
      x = c ∧ m2 = sortBy atomLe (m.filter fun a => (A a).isNone)) := by
  intro s A c
  obtain ⟨hk, hsm, hA⟩ := setValues_atoms E hE solver h v true hv hat hone
  have hst := C25_status E.info m A true
  have hev := (evaluate_eq E.info m A true).1
  have hev2 := (evaluate_eq E.info m A true).2
  simp only at hst
  have hc : (evaluate (compound E.info m) A true).1 = c := hev
  rw [hc] at hst
  have hm2 : sortBy atomLe (evaluate (compound E.info m) A true).2.1 = sortBy atomLe (m.filter fun a => (A a).isNone) := sort_perm hev2
  have hk' : s.known.get m = if m ∈ E.monomials then
        (if m.length ≤ 1 then (if ∀ a ∈ m, (A a).isSome = true then some (m.map fun a => (A a).getD 0).prod else none)
         else if (evaluate (compound E.info m) A true).2.2 = .known ∧ m ∈ remainingMons E (atomicKnowns (assignValues E v [(one, 1)])) true
           then some (evaluate (compound E.info m) A true).1 else none) else none := hk m
  have hsm' : s.semi.get m = if m ∈ remainingMons E (atomicKnowns (assignValues E v [(one, 1)])) true ∧ (evaluate (compound E.info m) A true).2.2 = .semi ∧ true = true then
        some ((evaluate (compound E.info m) A true).1, sortBy atomLe (evaluate (compound E.info m) A true).2.1) else none := hsm m
  have hmem : (∃ a ∈ m, (A a).isSome = true) → (m ∈ remainingMons E (atomicKnowns (assignValues E v [(one, 1)])) true ↔ m ∈ E.monomials ∧ 2 ≤ m.length) := by
    rintro ⟨a, ha, ha'⟩
    exact mem_remaining E _ true m ⟨a, ha, by rw [hA]; exact ha'⟩ (.inl rfl)
  have hlen2 : (∃ a ∈ m, (A a).isSome = true) → (∃ a ∈ m, A a = none) → 2 ≤ m.length := by
    rintro ⟨a, ha, ha'⟩ ⟨b, hb, hb'⟩
    rcases m with _ | ⟨x, _ | ⟨y, m⟩⟩
    · simp at ha
    · simp only [List.mem_singleton] at ha hb
      subst ha; subst hb
      rw [hb'] at ha'; simp at ha'
    · simp
  constructor
  · intro x
    rw [hk']
    by_cases hM : m ∈ E.monomials
    · rw [if_pos hM]
      by_cases hl : m.length ≤ 1
      · rw [if_pos hl]
        have hno : ¬ ((∃ a ∈ m, (A a).isSome = true) ∧ (∃ a ∈ m, A a = none) ∧ |c| ≤ 1 / 10 ^ 8) := by
          rintro ⟨h1, h2, _⟩
          have := hlen2 h1 h2
          omega
        by_cases ha : ∀ a ∈ m, (A a).isSome = true
        · have hf : (m.filter fun f => (A f).isSome) = m := List.filter_eq_self.2 ha
          simp only [if_pos ha, Option.some.injEq, hM, true_and]
          have hcm : c = (m.map fun a => (A a).getD 0).prod := by simp only [c, hf]
          rw [hcm]
          exact ⟨fun h => ⟨h.symm, .inl ha⟩, fun h => h.1.symm⟩
        · simp only [if_neg ha, reduceCtorEq, false_iff]
          rintro ⟨_, _, h1 | h1⟩
          · exact ha h1
          · exact hno h1
      · rw [if_neg hl]
        by_cases hK : (evaluate (compound E.info m) A true).2.2 = .known
        · have hK' := hst.1.1 hK
          have hr : m ∈ remainingMons E (atomicKnowns (assignValues E v [(one, 1)])) true := by
            apply (hmem ?_).2 ⟨hM, by omega⟩
            rcases hK' with h1 | h1
            · rcases m with _ | ⟨a, m⟩
              · simp at hl
              · exact ⟨a, by simp, h1 a (by simp)⟩
            · exact h1.2.1
          rw [if_pos ⟨hK, hr⟩, hc]
          simp only [Option.some.injEq, hM, true_and]
          constructor
          · intro h1
            refine ⟨h1.symm, ?_⟩
            rcases hK' with h2 | h2
            · exact .inl h2
            · exact .inr h2.2
          · exact fun h1 => h1.1.symm
        · rw [if_neg (fun h1 => hK h1.1)]
          simp only [reduceCtorEq, false_iff]
          rintro ⟨_, _, h1⟩
          apply hK
          apply hst.1.2
          rcases h1 with h2 | h2
          · exact .inl h2
          · exact .inr ⟨trivial, h2⟩
    · simp [hM]
  · intro x m2
    rw [hsm', hm2, hc]
    have h3 := hst.2.2
    by_cases hS : (∃ a ∈ m, (A a).isSome = true) ∧ (∃ a ∈ m, A a = none) ∧ 1 / 10 ^ 8 < |c|
    · have hst2 := h3.2 ⟨trivial, hS.1, hS.2.1, hS.2.2⟩
      by_cases hM : m ∈ E.monomials
      · have hr := (hmem hS.1).2 ⟨hM, hlen2 hS.1 hS.2.1⟩
        rw [if_pos ⟨hr, hst2, rfl⟩]
        simp only [Option.some.injEq, Prod.mk.injEq, hM, true_and]
        constructor
        · rintro ⟨h1, h2⟩; exact ⟨hS.1, hS.2.1, hS.2.2, h1.symm, h2.symm⟩
        · rintro ⟨_, _, _, h1, h2⟩; exact ⟨h1.symm, h2.symm⟩
      · rw [if_neg]
        · simp [hM]
        · rintro ⟨hr, _⟩
          exact hM ((hmem hS.1).1 hr).1
    · rw [if_neg]
      · simp only [reduceCtorEq, false_iff]
        rintro ⟨_, h1, h2, h4, _⟩
        exact hS ⟨h1, h2, h4⟩
      · rintro ⟨_, h1, _⟩
        have := h3.1 h1
        exact hS this.2

/-- **C26, premise of eliminating semi-known moments.** After setting values for atomic moments, the moment on the right of a semi-known relation is itself neither known nor semi-known. -/
theorem C26_semiknown_remainder_free (E : Env K) (hE : E.supports = false) (solver : Args → SolverOut) (h : List (Call K)) (v : List (K × Option Rat))
    (hv : v ≠ []) (hat : ∀ t ∈ v, ∃ a, E.san t.1 = [a]) (hone : one ∈ E.monomials) (m m2 : Mon) (c : Rat)
    (hs : (run E solver (h ++ [.setValues v true false])).semi.get m = some (c, m2)) :
    (run E solver (h ++ [.setValues v true false])).known.get m2 = none ∧ (run E solver (h ++ [.setValues v true false])).semi.get m2 = none := by
  have h1 := ((C26_semiknown_values E hE solver h v hv hat hone m).2 c m2).1 hs
  obtain ⟨_, _, ⟨b, hb, hbn⟩, _, _, hm2⟩ := h1
  have hmem : ∀ a, a ∈ m2 ↔ a ∈ m ∧ lastValue E v [a] = none := by
    intro a
    rw [hm2, mem_sortBy, List.mem_filter]
    simp
  have hno : ∀ a ∈ m2, (lastValue E v [a]).isSome = true → False := by
    intro a ha hs
    rw [((hmem a).1 ha).2] at hs
    simp at hs
  have hbm : b ∈ m2 := (hmem b).2 ⟨hb, hbn⟩
  constructor
  · rcases hx : (run E solver (h ++ [.setValues v true false])).known.get m2 with _ | x
    · exact hx
    · have := ((C26_semiknown_values E hE solver h v hv hat hone m2).1 x).1 hx
      rcases this.2.2 with h2 | ⟨⟨a, ha, ha'⟩, _⟩
      · exact (hno b hbm (h2 b hbm)).elim
      · exact (hno a ha ha').elim
  · rcases hx : (run E solver (h ++ [.setValues v true false])).semi.get m2 with _ | ⟨x, m3⟩
    · exact hx
    · obtain ⟨_, ⟨a, ha, ha'⟩, _⟩ := ((C26_semiknown_values E hE solver h v hv hat hone m2).2 x m3).1 hx
      exact (hno a ha ha').elim

end Verif.State

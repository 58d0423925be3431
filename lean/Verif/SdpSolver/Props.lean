import Verif.SdpSolver.Equiv
import Mathlib.Algebra.Order.Ring.Rat
import Mathlib.Tactic.NormNum
/-
C32: the problem handed to the SDP solver is the problem given.
-/
namespace Verif.SdpSolver
open Verif.State

variable {α K : Type} [DecidableEq α] [Field K] [LinearOrder K] {n : Nat}

omit [LinearOrder K] in
theorem get_known {known : Dict α K} (hn : known.keys.Nodup) {v : α → K} :
    (∀ y ∈ known.keys, v y = (Dict.get known y).getD 0) ↔ ∀ t ∈ known, v t.1 = t.2 := by
  constructor
  · intro h t ht
    rw [h t.1 (List.mem_map.2 ⟨t, ht, rfl⟩), (get_of_mem known hn t.1 t.2).1 ht]
    rfl
  · intro h y hy
    obtain ⟨t, ht, rfl⟩ := List.mem_map.1 hy
    rw [h t ht, (get_of_mem known hn t.1 t.2).1 ht]
    rfl

section
variable [IsStrictOrderedRing K]

/-- The names whose values the solver determines are the unknown ones, without the semi-known ones if these were eliminated; the signs of
the eliminated ones follow. -/
theorem vars_spec {fl : Flags α} {inp : Input α K n} {P : Prep α K n} {w : Work α K n} (hP : Final fl.process inp.known inp.semiknown w P)
    (hok : inp.Ok) (hw : ∀ y, y ∈ w.vars ↔ y ∈ baseVars inp) (y : α) :
    y ∈ P.vars ↔ inp.Unknown y ∧ (fl.process = true → y ∉ inp.semiknown.keys) := by
  unfold Input.Unknown
  cases hp : fl.process with
  | true =>
    rw [hP.vars_free hp y, hw y, mem_baseVars]
    constructor
    · rintro ⟨(⟨h1, h2⟩ | ⟨s, hs, rfl⟩), h3⟩
      · refine ⟨⟨h1, ?_⟩, fun _ => h3⟩
        rcases h2 with h | h | h | h
        · exact .inl h
        · exact .inr (.inl h)
        · exact .inr (.inr (.inl h))
        · exact .inr (.inr (.inr (.inl h)))
      · exact ⟨⟨hok.target_unknown s hs, .inr (.inr (.inr (.inr ⟨s, hs, .inr rfl⟩)))⟩, fun _ => h3⟩
    · rintro ⟨⟨h1, h2⟩, h3⟩
      refine ⟨?_, h3 rfl⟩
      rcases h2 with h | h | h | h | ⟨s, hs, h | h⟩
      · exact .inl ⟨h1, .inl h⟩
      · exact .inl ⟨h1, .inr (.inl h)⟩
      · exact .inl ⟨h1, .inr (.inr (.inl h))⟩
      · exact .inl ⟨h1, .inr (.inr (.inr h))⟩
      · exact absurd (List.mem_map.2 ⟨s, hs, h.symm⟩) (h3 rfl)
      · exact .inr ⟨s, hs, h⟩
  | false =>
    rw [hP.vars_all hp y, hw y, mem_baseVars]
    constructor
    · rintro (⟨h1, h2⟩ | ⟨s, hs, rfl⟩)
      · refine ⟨⟨h1, ?_⟩, by simp⟩
        rcases h2 with h | h | h | h
        · exact .inl h
        · exact .inr (.inl h)
        · exact .inr (.inr (.inl h))
        · exact .inr (.inr (.inr (.inl h)))
      · exact ⟨⟨hok.target_unknown s hs, .inr (.inr (.inr (.inr ⟨s, hs, .inr rfl⟩)))⟩, by simp⟩
    · rintro ⟨⟨h1, h2⟩, _⟩
      rcases h2 with h | h | h | h | ⟨s, hs, rfl | rfl⟩
      · exact .inl ⟨h1, .inl h⟩
      · exact .inl ⟨h1, .inr (.inl h)⟩
      · exact .inl ⟨h1, .inr (.inr (.inl h))⟩
      · exact .inl ⟨h1, .inr (.inr (.inr h))⟩
      · have := (hP.vars_all hp s.1).1 (hP.semi_vars hp s hs)
        rwa [hw, mem_baseVars] at this
      · exact .inr ⟨s, hs, rfl⟩

/-- **C32.** When preprocessing succeeds, the values of the remaining variables which are feasible for the problem handed to the solver are
exactly the restrictions of the solutions of the problem given, and the objective is the same. This holds whether the semi-known moments are
eliminated or not. -/
theorem C32_same_solutions {fl : Flags α} {inp : Input α K n} (hok : inp.Ok) (hf : fl.feas = false)
    (hc : fl.nonneg = true → ∀ s ∈ inp.semiknown, 0 ≤ s.2.1) {P : Prep α K n} (h : prep fl inp = some P) :
    (∀ y, y ∈ P.vars ↔ inp.Unknown y ∧ (fl.process = true → y ∉ inp.semiknown.keys)) ∧
    ∀ x, ((∃ G, P.Primal fl.nonneg x G) ↔ ∃ v, inp.Solves fl.nonneg v 0 ∧ ∀ y ∈ P.vars, v y = x y) ∧
      ∀ v, inp.Solves fl.nonneg v 0 → (∀ y ∈ P.vars, v y = x y) → P.primalValue x = lin inp.objective v := by
  have hcl := clean_start hok (fl := fl) (by simp [hf]) (by simp [hf])
  have hs : start fl inp = ⟨baseVars inp, inp.masks.map fun t => (t.1, some t.2), inp.objective, inp.ineqs, inp.eqs⟩ := by
    unfold start; rw [hf]; rfl
  rw [prep_eq] at h
  have hP := final_of hcl h
  have hv := vars_spec hP hok (fun y => by rw [hs])
  refine ⟨hv, fun x => ?_⟩
  obtain ⟨c1, c2⟩ := core hcl h fl.nonneg x
  have hw : ∀ v, ((start fl inp).Solves inp.known inp.semiknown v ∧ (fl.nonneg = true → ∀ y ∈ P.vars, 0 ≤ v y)) ↔ inp.Solves fl.nonneg v 0 := by
    intro v
    have hpsd : (fun i j => gsum (fun F => entry F i j) (start fl inp).masks v) = fun i j => inp.momentMatrix v i j - if i = j then 0 else 0 := by
      funext i j
      rw [hs]
      simp only [gsum_some, Input.momentMatrix, ite_self, sub_zero]
    constructor
    · rintro ⟨h1, h2⟩
      refine ⟨(get_known hok.known).1 h1.known, h1.semi, by simpa [hs] using h1.ineq, by simpa [hs] using h1.eq, ?_, ?_⟩
      · rw [← hpsd]; exact h1.psd
      · intro hn y hy
        by_cases hmem : y ∈ P.vars
        · exact h2 hn y hmem
        · have hm2 : y ∈ inp.semiknown.keys := by
            by_contra hc2
            exact hmem ((hv y).2 ⟨hy, fun _ => hc2⟩)
          obtain ⟨s, hs2, rfl⟩ := List.mem_map.1 hm2
          rw [h1.semi s hs2]
          refine mul_nonneg (hc hn s hs2) (h2 hn s.2.2 ((hv _).2 ⟨?_, fun _ => hok.target_free s hs2⟩))
          exact ⟨hok.target_unknown s hs2, .inr (.inr (.inr (.inr ⟨s, hs2, .inr rfl⟩)))⟩
    · intro h1
      refine ⟨⟨(get_known hok.known).2 h1.known, h1.semi, by simpa [hs] using h1.ineq, by simpa [hs] using h1.eq, ?_⟩, fun hn y hy => h1.sign hn y ((hv y).1 hy).1⟩
      rw [hpsd]; exact h1.psd
  refine ⟨?_, ?_⟩
  · rw [c1]
    refine exists_congr fun v => ?_
    rw [← hw v]
    tauto
  · intro v h1 h2
    rw [c2 v ((hw v).2 h1).1 h2, hs]

/-- **C32.** Eliminating the semi-known moments or passing them as equalities leads to the same feasible values of the remaining variables
and of the objective. -/
theorem C32_elimination_equivalent {fl : Flags α} {inp : Input α K n} (hok : inp.Ok) (hf : fl.feas = false)
    (hc : fl.nonneg = true → ∀ s ∈ inp.semiknown, 0 ≤ s.2.1) {P Q : Prep α K n}
    (hP : prep { fl with process := true } inp = some P) (hQ : prep { fl with process := false } inp = some Q) :
    (∀ x G, P.Primal fl.nonneg x G → ∃ x' G', Q.Primal fl.nonneg x' G' ∧ (∀ y ∈ P.vars, x' y = x y) ∧ Q.primalValue x' = P.primalValue x) ∧
    (∀ x G, Q.Primal fl.nonneg x G → ∃ G', P.Primal fl.nonneg x G' ∧ P.primalValue x = Q.primalValue x) := by
  obtain ⟨p1, p2⟩ := C32_same_solutions hok (fl := { fl with process := true }) hf hc hP
  obtain ⟨q1, q2⟩ := C32_same_solutions hok (fl := { fl with process := false }) hf hc hQ
  constructor
  · intro x G h
    obtain ⟨v, hv, hx⟩ := (p2 x).1.1 ⟨G, h⟩
    obtain ⟨G', hG'⟩ := (q2 v).1.2 ⟨v, hv, fun _ _ => rfl⟩
    exact ⟨v, G', hG', hx, by rw [(q2 v).2 v hv fun _ _ => rfl, (p2 x).2 v hv hx]⟩
  · intro x G h
    obtain ⟨v, hv, hx⟩ := (q2 x).1.1 ⟨G, h⟩
    have hx' : ∀ y ∈ P.vars, v y = x y := fun y hy => hx y ((q1 y).2 ⟨((p1 y).1 hy).1, by simp⟩)
    obtain ⟨G', hG'⟩ := (p2 x).1.2 ⟨v, hv, hx'⟩
    exact ⟨G', hG', by rw [(p2 x).2 v hv hx', (q2 x).2 v hv hx]⟩

/-- **C32, feasibility as optimisation.** The problem handed to the solver maximises the number `λ` such that the program has a solution
with `Γ - λ·1 ⪰ 0`. With default non-negativity `λ` itself is forced to be non-negative. -/
theorem C32_feasibility_as_optimisation {fl : Flags α} {inp : Input α K n} (hok : inp.Ok) (hf : fl.feas = true) (hfr : fl.Fresh inp)
    (hm : inp.masks ≠ []) (hc : fl.nonneg = true → ∀ s ∈ inp.semiknown, 0 ≤ s.2.1) {P : Prep α K n} (h : prep fl inp = some P) :
    ∃ lam : α, lam ∈ P.vars ∧ ¬ inp.Unknown lam ∧ lam ∉ inp.known.keys ∧
    ∀ x, ((∃ G, P.Primal fl.nonneg x G) ↔ (fl.nonneg = true → 0 ≤ x lam) ∧ ∃ v, inp.Solves fl.nonneg v (x lam) ∧ ∀ y ∈ P.vars, y ≠ lam → v y = x y) ∧
      P.primalValue x = x lam := by
  have hcl := clean_start hok (fun _ => hfr) (fun _ => hm)
  have he : inp.masks.isEmpty = false := by simpa using hm
  have hs : start fl inp = ⟨baseVars inp ++ [lamName fl (baseVars inp)], Dict.set (inp.masks.map fun t => (t.1, some t.2)) (lamName fl (baseVars inp)) (some minusOne),
      [(lamName fl (baseVars inp), 1)], inp.ineqs, inp.eqs⟩ := by
    unfold start; rw [hf, he]; rfl
  rw [prep_eq] at h
  have hP := final_of hcl h
  have hlam := lamName_notMem hfr.inj (baseVars inp)
  obtain ⟨k, hk⟩ : ∃ k, lamName fl (baseVars inp) = fl.lam k := ⟨_, rfl⟩
  set lam := lamName fl (baseVars inp) with hlamdef
  have hlk : lam ∉ inp.known.keys := by rw [hk]; exact hfr.known k
  have hls : ∀ s ∈ inp.semiknown, lam ≠ s.1 ∧ lam ≠ s.2.2 := by rw [hk]; exact hfr.semi k
  have hlsk : lam ∉ inp.semiknown.keys := by
    intro hmem
    obtain ⟨s, hs, hse⟩ := List.mem_map.1 hmem
    exact (hls s hs).1 hse.symm
  have hlu : ¬ inp.Unknown lam := by
    rintro ⟨_, h1⟩
    rcases h1 with h1 | h1 | h1 | h1 | ⟨s, hs, h1 | h1⟩
    · exact hlam ((mem_baseVars _ _).2 ⟨hlk, .inl h1⟩)
    · exact hlam ((mem_baseVars _ _).2 ⟨hlk, .inr (.inl h1)⟩)
    · exact hlam ((mem_baseVars _ _).2 ⟨hlk, .inr (.inr (.inl h1))⟩)
    · exact hlam ((mem_baseVars _ _).2 ⟨hlk, .inr (.inr (.inr h1))⟩)
    · exact (hls s hs).1 h1
    · exact (hls s hs).2 h1
  have hlm : lam ∉ inp.masks.keys := fun hm => hlam ((mem_baseVars _ _).2 ⟨hlk, .inl hm⟩)
  have hrl : ∀ d ∈ inp.ineqs ++ inp.eqs, lam ∉ d.keys := by
    intro d hd hmem
    rcases List.mem_append.1 hd with hd | hd
    · exact hlam ((mem_baseVars _ _).2 ⟨hlk, .inr (.inr (.inr ⟨d, hd, hmem⟩))⟩)
    · exact hlam ((mem_baseVars _ _).2 ⟨hlk, .inr (.inr (.inl ⟨d, hd, hmem⟩))⟩)
  have hvars : ∀ y, y ∈ P.vars ↔ (inp.Unknown y ∧ (fl.process = true → y ∉ inp.semiknown.keys)) ∨ y = lam := by
    intro y
    -- the same as without the additional variable
    have hwv : ∀ y, y ∈ (start fl inp).vars ↔ y ∈ baseVars inp ∨ y = lam := by intro y; rw [hs]; simp
    cases hp : fl.process with
    | true =>
      rw [hP.vars_free hp y, hwv y, mem_baseVars]
      constructor
      · rintro ⟨((⟨h1, h2⟩ | rfl) | ⟨s, hs2, rfl⟩), h3⟩
        · left
          refine ⟨⟨h1, ?_⟩, fun _ => h3⟩
          rcases h2 with h | h | h | h
          · exact .inl h
          · exact .inr (.inl h)
          · exact .inr (.inr (.inl h))
          · exact .inr (.inr (.inr (.inl h)))
        · exact .inr rfl
        · exact .inl ⟨⟨hok.target_unknown s hs2, .inr (.inr (.inr (.inr ⟨s, hs2, .inr rfl⟩)))⟩, fun _ => h3⟩
      · rintro (⟨⟨h1, h2⟩, h3⟩ | rfl)
        · refine ⟨?_, h3 rfl⟩
          rcases h2 with h | h | h | h | ⟨s, hs2, h | h⟩
          · exact .inl (.inl ⟨h1, .inl h⟩)
          · exact .inl (.inl ⟨h1, .inr (.inl h)⟩)
          · exact .inl (.inl ⟨h1, .inr (.inr (.inl h))⟩)
          · exact .inl (.inl ⟨h1, .inr (.inr (.inr h))⟩)
          · exact absurd (List.mem_map.2 ⟨s, hs2, h.symm⟩) (h3 rfl)
          · exact .inr ⟨s, hs2, h⟩
        · exact ⟨.inl (.inr rfl), hlsk⟩
    | false =>
      rw [hP.vars_all hp y, hwv y, mem_baseVars]
      constructor
      · rintro ((⟨h1, h2⟩ | rfl) | ⟨s, hs2, rfl⟩)
        · left
          refine ⟨⟨h1, ?_⟩, by simp⟩
          rcases h2 with h | h | h | h
          · exact .inl h
          · exact .inr (.inl h)
          · exact .inr (.inr (.inl h))
          · exact .inr (.inr (.inr (.inl h)))
        · exact .inr rfl
        · exact .inl ⟨⟨hok.target_unknown s hs2, .inr (.inr (.inr (.inr ⟨s, hs2, .inr rfl⟩)))⟩, by simp⟩
      · rintro (⟨⟨h1, h2⟩, _⟩ | rfl)
        · rcases h2 with h | h | h | h | ⟨s, hs2, rfl | rfl⟩
          · exact .inl (.inl ⟨h1, .inl h⟩)
          · exact .inl (.inl ⟨h1, .inr (.inl h)⟩)
          · exact .inl (.inl ⟨h1, .inr (.inr (.inl h))⟩)
          · exact .inl (.inl ⟨h1, .inr (.inr (.inr h))⟩)
          · have := (hP.vars_all hp s.1).1 (hP.semi_vars hp s hs2)
            rwa [hwv, mem_baseVars] at this
          · exact .inr ⟨s, hs2, rfl⟩
        · exact .inl (.inr rfl)
  have hlv : lam ∈ P.vars := (hvars lam).2 (.inr rfl)
  refine ⟨lam, hlv, hlu, hlk, fun x => ?_⟩
  obtain ⟨c1, c2⟩ := core hcl h fl.nonneg x
  have hpsd : ∀ v : α → K, (fun i j => gsum (fun F => entry F i j) (start fl inp).masks v) = fun i j => inp.momentMatrix v i j - if i = j then v lam else 0 := by
    intro v
    funext i j
    rw [hs]
    simp only
    rw [gsum_set _ none rfl, gsum_some]
    have : Dict.get (inp.masks.map fun t => (t.1, some t.2)) lam = none := (get_none _ _).2 (by rw [keys_some]; exact hlm)
    rw [this]
    simp only [Option.getD_none, entry, minusOne, Input.momentMatrix]
    split <;> ring
  have hval : P.primalValue x = x lam := by
    rw [primalValue_eq, hP.known_eq]
    have hobj : P.objective = [(lam, 1)] := by
      have := h
      unfold prepFrom at this
      obtain ⟨w', hw', h'⟩ := Option.bind_eq_some_iff.1 this
      have hob : w'.objective = [(lam, 1)] := by
        cases hp : fl.process with
        | true =>
          rw [hp] at hw'
          simp only [if_true] at hw'
          obtain ⟨_, _, e3, _⟩ := elimAll_spec _ _ _ _ _ hw'
          rcases e3 with ⟨e3, _⟩ | ⟨_, e3, _⟩
          · rw [e3, hs]
          · rw [hf] at e3; exact absurd e3 (by simp)
        | false =>
          rw [hp] at hw'
          simp only [Bool.false_eq_true, if_false, Option.some.injEq] at hw'
          subst hw'
          rw [(keepAll_spec _ _).2.2.1, hs]
      split at h'
      · obtain ⟨Fi, _, rfl⟩ := Option.map_eq_some_iff.1 h'
        exact hob
      · exact absurd h' (by simp)
    rw [hobj]
    simp only [lin, List.map_cons, List.map_nil, List.sum_cons, List.sum_nil, one_mul, add_zero]
    exact over_free (by rw [Bool.eq_false_iff]; exact fun h' => hlk ((has_iff _ _).1 h'))
  refine ⟨?_, hval⟩
  rw [c1]
  constructor
  · rintro ⟨v, hv, hx, hn⟩
    have hvl : v lam = x lam := hx lam hlv
    refine ⟨fun hnn => by rw [← hvl]; exact hn hnn lam hlv, v, ⟨(get_known hok.known).1 hv.known, hv.semi, by simpa [hs] using hv.ineq, by simpa [hs] using hv.eq, ?_, ?_⟩,
      fun y hy _ => hx y hy⟩
    · rw [← hvl, ← hpsd v]; exact hv.psd
    · intro hnn y hy
      by_cases hmem : y ∈ P.vars
      · exact hn hnn y hmem
      · have hm2 : y ∈ inp.semiknown.keys := by
          by_contra hc2
          exact hmem ((hvars y).2 (.inl ⟨hy, fun _ => hc2⟩))
        obtain ⟨s, hs2, rfl⟩ := List.mem_map.1 hm2
        rw [hv.semi s hs2]
        refine mul_nonneg (hc hnn s hs2) (hn hnn s.2.2 ((hvars _).2 (.inl ⟨?_, fun _ => hok.target_free s hs2⟩)))
        exact ⟨hok.target_unknown s hs2, .inr (.inr (.inr (.inr ⟨s, hs2, .inr rfl⟩)))⟩
  · rintro ⟨hn, v, hv, hx⟩
    -- the values with the additional variable
    have hne : ∀ y, y ≠ lam → (fun y => if y = lam then x lam else v y) y = v y := fun y hy => by simp [hy]
    have hlin : ∀ d ∈ inp.ineqs ++ inp.eqs, lin d (fun y => if y = lam then x lam else v y) = lin d v := by
      intro d hd
      exact lin_congr d _ _ fun y hy => hne y (by rintro rfl; exact hrl d hd hy)
    have hmm : inp.momentMatrix (fun y => if y = lam then x lam else v y) = inp.momentMatrix v := by
      funext i j
      unfold Input.momentMatrix
      congr 1
      apply List.map_congr_left
      intro t ht
      have : t.1 ≠ lam := fun e => hlm (e ▸ List.mem_map.2 ⟨t, ht, rfl⟩)
      simp only [this, if_false]
    refine ⟨fun y => if y = lam then x lam else v y, ⟨(get_known hok.known).2 ?_, ?_, ?_, ?_, ?_⟩, ?_, ?_⟩
    · intro t ht
      exact (hne t.1 (by rintro e; exact hlk (e ▸ List.mem_map.2 ⟨t, ht, rfl⟩))).trans (hv.known t ht)
    · intro s hs2
      have e1 := hne s.1 (hls s hs2).1.symm
      have e2 := hne s.2.2 (hls s hs2).2.symm
      simp only at e1 e2 ⊢
      rw [e1, e2]
      exact hv.semi s hs2
    · rw [hs]
      intro d hd
      rw [hlin d (List.mem_append_left _ hd)]
      exact hv.ineq d hd
    · rw [hs]
      intro d hd
      rw [hlin d (List.mem_append_right _ hd)]
      exact hv.eq d hd
    · rw [hpsd, hmm]
      simp only [if_true]
      exact hv.psd
    · intro y hy
      by_cases e : y = lam
      · simp [e]
      · simp only [e, if_false]
        exact hx y hy e
    · intro hnn y hy
      by_cases e : y = lam
      · simp only [e, if_true]; exact hn hnn
      · simp only [e, if_false]
        rcases (hvars y).1 hy with h1 | h1
        · exact hv.sign hnn y h1.1
        · exact absurd h1 e

/-- **C32, no exceptions.** If every semi-known moment is in the moment matrix and not known, preprocessing succeeds. -/
theorem C32_accepted {fl : Flags α} {inp : Input α K n} (hok : inp.Ok) (hfr : fl.feas = true → fl.Fresh inp)
    (hs : ∀ s ∈ inp.semiknown, s.1 ∈ inp.masks.keys) : ∃ P, prep fl inp = some P := by
  have hrowsOk : ∀ (vars : List α) (rows : List (Dict α K)), (∀ d ∈ rows, ∀ y ∈ d.keys, y ∉ inp.known.keys → y ∈ vars) → rowsOk vars inp.known rows = true := by
    intro vars rows h
    unfold rowsOk
    refine List.all_eq_true.2 fun d hd => List.all_eq_true.2 fun t ht => ?_
    rw [Bool.or_eq_true_iff]
    by_cases hk : t.1 ∈ inp.known.keys
    · exact .inl ((has_iff _ _).2 hk)
    · exact .inr (by simpa using h d hd t.1 (List.mem_map.2 ⟨t, ht, rfl⟩) hk)
  have hproper : ∀ m : Dict α (Option (Mat n K)), (∀ t ∈ m, t.2 ≠ none) → ∃ Fi, properMasks m = some Fi := by
    intro m hm
    induction m with
    | nil => exact ⟨[], rfl⟩
    | cons t m ih =>
      obtain ⟨y, F⟩ := t
      obtain ⟨Fi, hFi⟩ := ih fun t ht => hm t (List.mem_cons_of_mem _ ht)
      rcases F with _ | F
      · exact absurd rfl (hm _ List.mem_cons_self)
      · exact ⟨(y, F) :: Fi, by simp only [properMasks, hFi, Option.map_some]⟩
  have hw0 : (start fl inp).ineqs = inp.ineqs ∧ (start fl inp).eqs = inp.eqs ∧ (∀ y ∈ baseVars inp, y ∈ (start fl inp).vars) ∧
      (∀ y ∈ inp.masks.keys, y ∈ (start fl inp).masks.keys) ∧ (∀ t ∈ (start fl inp).masks, t.2 ≠ none) := by
    unfold start
    simp only
    split
    · refine ⟨rfl, rfl, fun y hy => List.mem_append_left _ hy, fun y hy => (mem_set_keys _ _ _ _).2 (.inr (by rwa [keys_some])), ?_⟩
      intro t ht
      have : ∀ (d : Dict α (Option (Mat n K))) k, (∀ t ∈ d, t.2 ≠ none) → ∀ t ∈ d.set k (some minusOne), t.2 ≠ none := by
        intro d k hd
        induction d with
        | nil => simp [Dict.set]
        | cons u d ih =>
          obtain ⟨a, b⟩ := u
          have ih := ih fun t ht => hd t (List.mem_cons_of_mem _ ht)
          simp only [Dict.set]
          split
          · intro t ht
            rcases List.mem_cons.1 ht with rfl | ht
            · simp
            · exact hd t (List.mem_cons_of_mem _ ht)
          · intro t ht
            rcases List.mem_cons.1 ht with rfl | ht
            · exact hd _ List.mem_cons_self
            · exact ih t ht
      exact this _ _ (by intro t ht; obtain ⟨u, _, rfl⟩ := List.mem_map.1 ht; simp) t ht
    · refine ⟨rfl, rfl, fun y hy => hy, fun y hy => by rwa [keys_some], ?_⟩
      intro t ht; obtain ⟨u, _, rfl⟩ := List.mem_map.1 ht; simp
  obtain ⟨w1, w2, w3, w4, w5⟩ := hw0
  have hkeyv : ∀ s ∈ inp.semiknown, s.1 ∈ (start fl inp).vars := fun s hs2 =>
    w3 _ ((mem_baseVars _ _).2 ⟨hok.semi_unknown s hs2, .inl (hs s hs2)⟩)
  rw [prep_eq]
  unfold prepFrom
  cases hp : fl.process with
  | false =>
    simp only [Bool.false_eq_true, if_false, Option.bind_some]
    obtain ⟨e1, e2, e3, e4, e5, _⟩ := keepAll_spec inp.semiknown (start fl inp)
    obtain ⟨Fi, hFi⟩ := hproper (start fl inp).masks w5
    rw [e1, e2, e4, hFi, if_pos]
    · exact ⟨_, rfl⟩
    · rw [Bool.and_eq_true_iff]
      constructor
      · apply hrowsOk
        intro d hd y hy hk
        rw [w1] at hd
        exact (e5 y).2 (.inl (w3 y ((mem_baseVars _ _).2 ⟨hk, .inr (.inr (.inr ⟨d, hd, hy⟩))⟩)))
      · apply hrowsOk
        intro d hd y hy hk
        rw [w2] at hd
        rcases List.mem_append.1 hd with hd | hd
        · exact (e5 y).2 (.inl (w3 y ((mem_baseVars _ _).2 ⟨hk, .inr (.inr (.inl ⟨d, hd, hy⟩))⟩)))
        · obtain ⟨s, hs2, rfl⟩ := List.mem_map.1 hd
          unfold semiRow at hy
          rcases (mem_set_keys _ _ _ _).1 hy with rfl | hy
          · exact (e5 _).2 (.inr ⟨s, hs2, rfl⟩)
          · have : y = s.1 := by simpa [Dict.keys] using hy
            rw [this]
            exact (e5 _).2 (.inl (hkeyv s hs2))
  | true =>
    simp only [if_true]
    -- the loop does not raise
    have hloop : ∀ (l : Dict α (K × α)) (w : Work α K n), l.keys.Nodup → (∀ s ∈ l, s.2.2 ∉ l.keys) → (∀ s ∈ l, s.1 ∈ w.vars) →
        ∃ w', elimAll fl (!inp.masks.isEmpty) w l = some w' := by
      intro l
      induction l with
      | nil => exact fun w _ _ _ => ⟨w, rfl⟩
      | cons s l ih =>
        intro w hn ht hv
        simp only [elimAll, elimStep, if_pos (hv s List.mem_cons_self), Option.bind_some]
        simp only [Dict.keys, List.map_cons, List.nodup_cons] at hn
        apply ih
        · exact hn.2
        · exact fun t htl hk => ht t (List.mem_cons_of_mem _ htl) (List.mem_cons_of_mem _ hk)
        · intro t htl
          have hne : t.1 ≠ s.1 := fun e => hn.1 (e ▸ List.mem_map.2 ⟨t, htl, rfl⟩)
          have hmem : t.1 ∈ w.vars.filter fun y => !decide (y = s.1) := List.mem_filter.2 ⟨hv t (List.mem_cons_of_mem _ htl), by simpa using hne⟩
          simp only
          split
          · exact hmem
          · exact List.mem_append_left _ hmem
    obtain ⟨w', hw'⟩ := hloop inp.semiknown (start fl inp) hok.semiknown hok.target_free hkeyv
    rw [hw', Option.bind_some]
    obtain ⟨e1, e2, _, e4, e5, _⟩ := elimAll_spec _ _ _ _ _ hw'
    have e5 := e5 hok.target_free
    have hrows : ∀ rows : List (Dict α K), (∀ d ∈ rows, d.keys.Nodup) → (∀ d ∈ rows, ∀ y ∈ d.keys, y ∉ inp.known.keys → y ∈ baseVars inp) →
        rowsOk w'.vars inp.known (rows.map (elimL inp.semiknown)) = true := by
      intro rows hn hr
      apply hrowsOk
      intro d hd y hy hk
      obtain ⟨d', hd', rfl⟩ := List.mem_map.1 hd
      obtain ⟨_, _, k3, k4⟩ := elimL_spec inp.semiknown d' (hn d' hd')
      refine (e5 y).2 ⟨?_, k4 hok.target_free y hy⟩
      rcases k3 y hy with h | h
      · exact .inl (w3 y (hr d' hd' y h hk))
      · exact .inr h
    rw [if_pos]
    · -- no integer matrices are left
      have hmasks : ∀ t ∈ w'.masks, t.2 ≠ none := by
        rw [e4]
        cases hme : (!inp.masks.isEmpty) with
        | false => simpa using w5
        | true =>
          simp only [if_true]
          have hgen : ∀ (l : Dict α (K × α)) (m : Dict α (Option (Mat n K))), m.keys.Nodup → l.keys.Nodup → (∀ s ∈ l, s.1 ∈ m.keys) → (∀ s ∈ l, s.2.2 ∉ l.keys) → (∀ t ∈ m, t.2 ≠ none) →
              ∀ t ∈ elimM l m, t.2 ≠ none := by
            intro l
            induction l with
            | nil => exact fun m _ _ _ _ h => h
            | cons s l ih =>
              intro m hm hl hsm htf hnn
              simp only [Dict.keys, List.map_cons, List.nodup_cons] at hl
              apply ih (gelim addMat smulMat none m s) (gelim_nodup _ _ _ _ hm _) hl.2
              · intro t htl
                refine (mem_gelim_keys _ _ _ _ _ _).2 (.inr ⟨hsm t (List.mem_cons_of_mem _ htl), fun e => hl.1 (e ▸ List.mem_map.2 ⟨t, htl, rfl⟩)⟩)
              · exact fun t htl hk => htf t (List.mem_cons_of_mem _ htl) (List.mem_cons_of_mem _ hk)
              · intro t ht
                have hg := (get_of_mem _ (gelim_nodup _ _ _ _ hm s) t.1 t.2).1 ht
                unfold gelim at hg
                rw [get_set] at hg
                split at hg
                · simp only [Option.some.injEq] at hg
                  rw [← hg]
                  obtain ⟨F, hF⟩ := (mem_keys m s.1).1 (hsm s List.mem_cons_self)
                  rw [hF, Option.getD_some]
                  rcases F with _ | F
                  · exact absurd rfl (hnn _ ((get_of_mem m hm s.1 none).2 hF))
                  · generalize (Dict.get (m.erase s.1) s.2.2).getD none = G
                    cases G <;> simp [addMat, smulMat]
                · have : (t.1, t.2) ∈ m.erase s.1 := (get_of_mem _ (nodup_filter _ _ hm) _ _).2 hg
                  exact hnn _ (List.mem_filter.1 this).1
          have hst : (start fl inp).masks.keys.Nodup := by
            have := clean_start hok hfr (fun _ => by intro he; rw [he] at hme; simp at hme)
            exact this.masks
          exact hgen inp.semiknown _ hst hok.semiknown (fun s hs2 => w4 _ (hs s hs2)) hok.target_free w5
      obtain ⟨Fi, hFi⟩ := hproper _ hmasks
      rw [hFi]
      exact ⟨_, rfl⟩
    · rw [Bool.and_eq_true_iff, e1, e2, w1, w2]
      exact ⟨hrows _ hok.ineqs fun d hd y hy hk => (mem_baseVars _ _).2 ⟨hk, .inr (.inr (.inr ⟨d, hd, hy⟩))⟩,
        hrows _ hok.eqs fun d hd y hy hk => (mem_baseVars _ _).2 ⟨hk, .inr (.inr (.inl ⟨d, hd, hy⟩))⟩⟩

omit [IsStrictOrderedRing K] in
theorem elimAll_mem (fl : Flags α) (hm : Bool) (l : Dict α (K × α)) : ∀ (w w' : Work α K n), elimAll fl hm w l = some w' →
    ∀ s ∈ l, s.1 ∈ w.vars ∨ ∃ t ∈ l, s.1 = t.2.2 := by
  induction l with
  | nil => simp
  | cons u l ih =>
    intro w w' h s hs
    obtain ⟨w1, h1, h2⟩ := Option.bind_eq_some_iff.1 h
    unfold elimStep at h1
    split at h1
    · rename_i hmem
      simp only [Option.some.injEq] at h1
      rcases List.mem_cons.1 hs with rfl | hs
      · exact .inl hmem
      · rcases ih w1 w' h2 s hs with h3 | ⟨t, ht, h3⟩
        · subst h1
          simp only at h3
          split at h3
          · exact .inl (List.mem_filter.1 h3).1
          · rcases List.mem_append.1 h3 with h3 | h3
            · exact .inl (List.mem_filter.1 h3).1
            · exact .inr ⟨u, List.mem_cons_self, by simpa using h3⟩
        · exact .inr ⟨t, List.mem_cons_of_mem _ ht, h3⟩
    · exact absurd h1 (by simp)

omit [IsStrictOrderedRing K] in
/-- **C32, exception.** A semi-known moment which occurs nowhere else in the program makes the elimination raise. -/
theorem C32_missing_semiknown_raises {fl : Flags α} {inp : Input α K n} (hf : fl.feas = false) (hp : fl.process = true) {s : α × K × α} (hs : s ∈ inp.semiknown)
    (ht : ∀ t ∈ inp.semiknown, s.1 ≠ t.2.2) (h1 : s.1 ∉ inp.masks.keys) (h2 : s.1 ∉ inp.objective.keys) (h3 : ∀ d ∈ inp.eqs ++ inp.ineqs, s.1 ∉ d.keys) :
    prep fl inp = none := by
  rw [prep_eq]
  unfold prepFrom
  rw [hp]
  simp only [if_true]
  rcases he : elimAll fl (!inp.masks.isEmpty) (start fl inp) inp.semiknown with _ | w
  · rfl
  · exfalso
    rcases elimAll_mem fl _ _ _ _ he s hs with h | ⟨t, ht2, h⟩
    · have hst : start fl inp = ⟨baseVars inp, inp.masks.map fun t => (t.1, some t.2), inp.objective, inp.ineqs, inp.eqs⟩ := by
        unfold start; rw [hf]; rfl
      rw [hst] at h
      obtain ⟨_, h | h | ⟨d, hd, h⟩ | ⟨d, hd, h⟩⟩ := (mem_baseVars _ _).1 h
      · exact h1 h
      · exact h2 h
      · exact h3 d (List.mem_append_left _ hd) h
      · exact h3 d (List.mem_append_right _ hd) h
    · exact ht t ht2 h

end

end Verif.SdpSolver

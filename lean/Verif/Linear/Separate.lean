import Verif.SdpEnd.Truth
import Verif.SdpState.Truth
/-!
Semi-known moments after `set_values` with `use_lpi_constraints=True` and values for single atoms: they are proportional to moments which are neither known nor semi-known.
-/
namespace Verif.Linear
open Verif.Common Verif.Moment Verif.SdpState
open Verif.State (Dict Mon get_set get_none mem_keys get_filter)
open Verif.SdpEnd (atomicKnowns_some)

variable {K : Type}

/-- The adjoint is an involution on the atoms of the moments with several factors, none of which is one or zero. -/
structure Adjoint (E : Env K) (S : Atom → Prop) : Prop where
  closed : ∀ a, S a → S (E.dagger a)
  invol : ∀ a, S a → E.dagger (E.dagger a) = a
  moments : ∀ m ∈ E.moments, 2 ≤ m.length → ∀ a ∈ m, S a
  ne : ∀ a, S a → a ≠ [] ∧ E.info.zero a = false
  zero : ∀ z, E.zero = some z → ∃ a, z = [a] ∧ E.dagger a = a

/-- Values for atoms only: what `set_distribution` gives to `set_values`. -/
def AtomKey (E : Env K) (S : Atom → Prop) (m : Mon) : Prop := m = [] ∨ ∃ a, m = [a] ∧ (S a ∨ E.dagger a = a)

/-- The calls after which the semi-known moments are separated: linearised constraints are only asked for together with values for atoms, and no values are added to earlier ones. -/
def Fresh (E : Env K) (S : Atom → Prop) : Call K → Prop
  | .setValues v lpi o => lpi = true → o = false → ∀ t ∈ v, AtomKey E S (E.san t.1)
  | .updateValues _ _ _ => False
  | _ => True

/-- Some atoms (`k`) are known, a known moment has a known factor, a semi-known moment has a known factor and is proportional to a moment without known factors. -/
def Split (moments : List Mon) (known : Dict Mon Rat) (semi : Dict Mon (Rat × Mon)) : Prop :=
  ∃ k : Atom → Prop, (∀ m x, known.get m = some x → m = [] ∨ ∃ a ∈ m, k a) ∧
    ∀ m c t, semi.get m = some (c, t) → m ∈ moments ∧ 2 ≤ m.length ∧ (∃ a ∈ m, k a) ∧ t ≠ [] ∧ ∀ a ∈ t, ¬ k a

theorem split_nil (moments : List Mon) (known : Dict Mon Rat) : Split moments known [] :=
  ⟨fun _ => True, fun m _ _ => by
    cases m with
    | nil => exact .inl rfl
    | cons a m => exact .inr ⟨a, by simp, trivial⟩, fun m c t h => by simp at h⟩

theorem split_mono {moments : List Mon} {k : Dict Mon Rat} {e e' : Dict Mon (Rat × Mon)} (h : ∀ m x, Dict.get e' m = some x → Dict.get e m = some x) (hs : Split moments k e) : Split moments k e' := by
  obtain ⟨p, h1, h2⟩ := hs
  exact ⟨p, h1, fun m c t hm => h2 m c t (h m _ hm)⟩

variable {E : Env K} {S : Atom → Prop}

/-- Knowing an atom and knowing its adjoint are the same. -/
theorem known_dagger (H : Adjoint E S) {known : Dict Mon Rat} (hk : ∀ m ∈ known.keys, AtomKey E S m) {a : Atom} (ha : S a) :
    ((atomicKnowns E known).get (E.dagger a)).isSome = true ↔ ((atomicKnowns E known).get a).isSome = true := by
  rw [atomicKnowns_some, atomicKnowns_some]
  have key : ∀ b, [b] ∈ known.keys → S b ∨ E.dagger b = b := by
    intro b hb
    rcases hk _ hb with h | ⟨c, h, h'⟩
    · simp at h
    · have : b = c := by simpa using h
      rw [this]; exact h'
  constructor
  · rintro (h | ⟨b, hb, e⟩)
    · exact .inr ⟨_, h, H.invol a ha⟩
    · rcases key b hb with h | h
      · left
        have : b = a := by rw [← H.invol b h, e, H.invol a ha]
        rw [← this]; exact hb
      · right
        refine ⟨b, hb, ?_⟩
        have : b = E.dagger a := h.symm.trans e
        rw [this, H.invol a ha]
  · rintro (h | ⟨b, hb, e⟩)
    · exact .inr ⟨a, h, rfl⟩
    · rcases key b hb with h | h
      · left
        rw [← e, H.invol b h]; exact hb
      · right
        have : b = a := by rw [← h, e]
        exact ⟨a, by rw [← this]; exact hb, rfl⟩

/-- What the evaluation of a moment with unknown factors says. -/
theorem evaluate_status (H : Adjoint E S) {known : Dict Mon Rat} (hk : ∀ m ∈ known.keys, AtomKey E S m) (lpi : Bool) {m : Mon} (hm : m ∈ E.moments) (h2 : 2 ≤ m.length) :
    ((evaluate (compoundSDP E.info E.dagger m) (atomicKnowns E known).get lpi).2.2 ≠ .unknown → ∃ a ∈ m, ((atomicKnowns E known).get a).isSome = true) ∧
    ((evaluate (compoundSDP E.info E.dagger m) (atomicKnowns E known).get lpi).2.2 = .semi →
      (evaluate (compoundSDP E.info E.dagger m) (atomicKnowns E known).get lpi).2.1 ≠ [] ∧
      ∀ a ∈ (evaluate (compoundSDP E.info E.dagger m) (atomicKnowns E known).get lpi).2.1, S a ∧ ¬ ((atomicKnowns E known).get a).isSome = true) := by
  have hS := H.moments m hm h2
  obtain ⟨l, hl, hlS, hlk, hlen⟩ : ∃ l : List Atom, compoundSDP E.info E.dagger m = compound E.info l ∧ (∀ a ∈ l, S a) ∧
      (∀ a ∈ l, ((atomicKnowns E known).get a).isSome = true → ∃ b ∈ m, ((atomicKnowns E known).get b).isSome = true) ∧ l.length = m.length := by
    unfold compoundSDP
    dsimp only
    split
    · refine ⟨_, rfl, fun a ha => hS a (mem_sortBy.1 ha), fun a ha h => ⟨a, mem_sortBy.1 ha, h⟩, (sortBy_perm atomLe _).length_eq⟩
    · refine ⟨_, rfl, ?_, ?_, by rw [(sortBy_perm atomLe _).length_eq, List.length_map]⟩
      · intro a ha
        obtain ⟨b, hb, rfl⟩ := List.mem_map.1 (mem_sortBy.1 ha)
        exact H.closed b (hS b hb)
      · intro a ha h
        obtain ⟨b, hb, rfl⟩ := List.mem_map.1 (mem_sortBy.1 ha)
        exact ⟨b, hb, (known_dagger H hk (hS b hb)).1 h⟩
  rw [hl]
  obtain ⟨-, hp⟩ := evaluate_eq E.info l (atomicKnowns E known).get lpi
  have hst : (evaluate (compound E.info l) (atomicKnowns E known).get lpi).2.2 =
      if (evaluate (compound E.info l) (atomicKnowns E known).get lpi).2.1.length = 0 then .known
      else if (evaluate (compound E.info l) (atomicKnowns E known).get lpi).2.1.length = (sortBy atomLe l).length || !lpi then .unknown
      else if isClose0 (evaluate (compound E.info l) (atomicKnowns E known).get lpi).1 then .known else .semi := rfl
  have hsl : (sortBy atomLe l).length = l.length := (sortBy_perm atomLe _).length_eq
  have hex : (evaluate (compound E.info l) (atomicKnowns E known).get lpi).2.1.length ≠ l.length → ∃ a ∈ l, ((atomicKnowns E known).get a).isSome = true := by
    intro h
    by_contra hc
    push Not at hc
    apply h
    rw [hp.length_eq]
    congr 1
    apply List.filter_eq_self.2
    intro a ha
    have := hc a ha
    simpa using this
  constructor
  · intro h
    have : ∃ a ∈ l, ((atomicKnowns E known).get a).isSome = true := by
      apply hex
      intro e
      apply h
      rw [hst, if_neg (by rw [e, hlen]; omega), hsl, e]
      simp
    obtain ⟨a, ha, h'⟩ := this
    exact hlk a ha h'
  · intro h
    constructor
    · intro e
      rw [hst, e] at h
      simp at h
    · intro a ha
      have := hp.mem_iff.1 ha
      obtain ⟨q1, q2⟩ := List.mem_filter.1 this
      exact ⟨hlS a q1, by simpa using q2⟩

/-- The moment of unknown atoms has no known factor. -/
theorem monFromAtoms_unknown (H : Adjoint E S) {known : Dict Mon Rat} (hk : ∀ m ∈ known.keys, AtomKey E S m) {l : List Atom} (hne : l ≠ [])
    (hl : ∀ a ∈ l, S a ∧ ¬ ((atomicKnowns E known).get a).isSome = true) : monFromAtoms E l ≠ [] ∧ ∀ a ∈ monFromAtoms E l, ¬ ((atomicKnowns E known).get a).isSome = true := by
  have hf : l.find? E.info.zero = none := by
    rw [List.find?_eq_none]
    intro a ha
    rw [(H.ne a (hl a ha).1).2]
    simp
  have hfilter : (l.filter fun a => !a.isEmpty) = l := by
    apply List.filter_eq_self.2
    intro a ha
    simpa using (H.ne a (hl a ha).1).1
  unfold monFromAtoms
  dsimp only
  rw [hf]
  dsimp only
  rw [hfilter]
  split
  · refine ⟨fun e => hne ?_, fun a ha => (hl a (mem_sortBy.1 ha)).2⟩
    have := (sortBy_perm atomLe l).length_eq
    rw [e] at this
    exact List.length_eq_zero_iff.1 this.symm
  · constructor
    · intro e
      have := (sortBy_perm atomLe ((sortBy atomLe l).map E.dagger)).length_eq
      rw [e, List.length_map, (sortBy_perm atomLe l).length_eq] at this
      exact hne (List.length_eq_zero_iff.1 this.symm)
    · intro a ha
      obtain ⟨b, hb, rfl⟩ := List.mem_map.1 (mem_sortBy.1 ha)
      have hb := hl b (mem_sortBy.1 hb)
      rw [known_dagger H hk hb.1]
      exact hb.2

/-- After `set_values` the moments are split. -/
theorem split_setValues (H : Adjoint E S) (hE : E.supports = false) (s : St) (hg : Good s) {v : List (K × Option Rat)} {lpi o : Bool} (hf : Fresh E S (.setValues v lpi o)) :
    Split E.moments (setValues E v lpi o s).1.known (setValues E v lpi o s).1.semi := by
  have hgr := resetValues_good E s hg
  have hreset : ∀ m ∈ (resetValues E s).known.keys, AtomKey E S m := by
    intro m hm
    obtain ⟨x, hx⟩ := (mem_keys _ _).1 hm
    have hx : ((match E.zero with | some z => Dict.set [] z 0 | none => ([] : Dict Mon Rat)).set one 1).get m = some x := hx
    rw [get_set] at hx
    split at hx
    · rename_i e; exact .inl e.symm
    · rcases hz : E.zero with _ | z
      · rw [hz] at hx; simp at hx
      · rw [hz] at hx
        dsimp only at hx
        rw [get_set] at hx
        split at hx
        · rename_i e
          obtain ⟨a, ha, hd⟩ := H.zero z hz
          exact .inr ⟨a, by rw [← e, ha], .inr hd⟩
        · simp at hx
  unfold setValues
  dsimp only
  split
  · obtain ⟨e1, e2⟩ := cleanup_values E hE _ hgr
    exact split_mono e2 (split_nil _ _)
  · rename_i hv
    unfold updateValues
    rw [if_neg hv]
    obtain ⟨e1, e2⟩ := cleanup_values E hE _ (pre_good E v lpi o _ hgr)
    rw [e1]
    refine split_mono e2 ?_
    unfold preUpdate
    dsimp only
    by_cases ho : o = true
    · rw [if_pos ho]
      exact split_nil _ _
    rw [if_neg ho]
    set known := assignValues E v (resetValues E s).known with hkn
    have hloop := evalLoop_of E (atomicKnowns E known) lpi (remainingMons E (atomicKnowns E known) lpi) (known.filter fun t => decide (t.1 ∈ E.moments), (resetValues E s).semi)
    by_cases hlpi : lpi = true
    · have hk : ∀ m ∈ known.keys, AtomKey E S m := by
        intro m hm
        obtain ⟨x, hx⟩ := (mem_keys _ _).1 hm
        rcases assign_get_of E v _ m x hx with h | h
        · obtain ⟨t, ht, e, -⟩ := h
          rw [← e]
          exact hf hlpi (by simpa using ho) t ht
        · exact hreset m ((mem_keys _ _).2 ⟨x, h⟩)
      refine ⟨fun a => ((atomicKnowns E known).get a).isSome = true, ?_, ?_⟩
      · intro m x hx
        rcases hloop.1 m x hx with h | ⟨h, hs, -⟩
        · dsimp only at h
          rw [get_filter _ _ (assign_nodup E v _ hgr.known)] at h
          have hm : m ∈ known.keys := (mem_keys _ _).2 ⟨x, h.1⟩
          rcases hk m hm with h' | ⟨a, rfl, -⟩
          · exact .inl h'
          · exact .inr ⟨a, by simp, (atomicKnowns_some E known a).2 (.inl hm)⟩
        · obtain ⟨q1, q2⟩ := remaining_of E _ lpi m h
          exact .inr ((evaluate_status H hk lpi q1 q2).1 (by rw [hs]; simp))
      · intro m c t ht
        rcases hloop.2.1 m _ ht with h | ⟨h, hs, e⟩
        · change Dict.get ([] : Dict Mon (Rat × Mon)) m = _ at h
          simp at h
        · obtain ⟨q1, q2⟩ := remaining_of E _ lpi m h
          obtain ⟨q3, q4⟩ := evaluate_status H hk lpi q1 q2
          obtain ⟨q5, q6⟩ := q4 hs
          have e2 : t = _ := congrArg Prod.snd e
          rw [e2]
          exact ⟨q1, q2, q3 (by rw [hs]; simp), monFromAtoms_unknown H hk q5 q6⟩
    · have hlpi : lpi = false := by simpa using hlpi
      subst hlpi
      have hnone : ∀ m x, Dict.get (List.foldl (evalMon E (atomicKnowns E known) false) (known.filter fun t => decide (t.1 ∈ E.moments), (resetValues E s).semi)
          (remainingMons E (atomicKnowns E known) false)).2 m = some x → Dict.get ([] : Dict Mon (Rat × Mon)) m = some x := by
        intro m x hx
        rcases hloop.2.1 m x hx with h | ⟨h, hs, e⟩
        · exact h
        · exfalso
          unfold evaluate at hs
          simp at hs
          split at hs <;> simp at hs
      exact split_mono hnone (split_nil _ _)

/-- The moments are split after every history of fresh calls. -/
theorem split_run (H : Adjoint E S) (hE : E.supports = false) (solver : Args → SolverOut) (h : List (Call K)) (hf : ∀ c ∈ h, Fresh E S c) :
    Split E.moments (run E solver h).known (run E solver h).semi := by
  have key : Good (run E solver h) ∧ Split E.moments (run E solver h).known (run E solver h).semi := by
    refine fold_induction E solver (fun s => Good s ∧ Split E.moments s.known s.semi) (fun c => Fresh E S c) ?_ h hf _ ⟨init_good E, ?_⟩
    · intro s c hc ⟨hg, hs⟩
      refine ⟨call_good E solver s c hg, ?_⟩
      by_cases h1 : ∃ v lpi o, c = .setValues v lpi o
      · obtain ⟨v, lpi, o, rfl⟩ := h1
        exact split_setValues H hE s hg hc
      · by_cases h2 : ∃ v lpi o, c = .updateValues v lpi o
        · obtain ⟨v, lpi, o, rfl⟩ := h2
          exact hc.elim
        · rcases values_same E solver s c (fun v lpi o e => h1 ⟨v, lpi, o, e⟩) (fun v lpi o e => h2 ⟨v, lpi, o, e⟩) with ⟨e1, e2⟩ | ⟨e1, e2⟩
          · rw [e1, e2]; exact hs
          · rw [e2]; exact split_nil _ _
    · exact split_setValues H hE _ (setObjective_good E none true _ (blank_good E)) (fun h => by simp at h)
  exact key.2

/-- A semi-known moment is proportional to a moment which is neither known nor semi-known. -/
theorem separated_run (H : Adjoint E S) (hE : E.supports = false) (solver : Args → SolverOut) (h : List (Call K)) (hf : ∀ c ∈ h, Fresh E S c) {m t : Mon} {c : Rat}
    (hm : (run E solver h).semi.get m = some (c, t)) : (run E solver h).known.get t = none ∧ (run E solver h).semi.get t = none := by
  obtain ⟨k, h1, h2⟩ := split_run H hE solver h hf
  obtain ⟨-, -, -, hne, hno⟩ := h2 m c t hm
  constructor
  · rcases e : (run E solver h).known.get t with _ | x
    · rfl
    · exfalso
      rcases h1 t x e with h | ⟨a, ha, h⟩
      · exact hne h
      · exact hno a ha h
  · rcases e : (run E solver h).semi.get t with _ | x
    · rfl
    · exfalso
      obtain ⟨-, -, ⟨a, ha, h⟩, -⟩ := h2 t x.1 x.2 e
      exact hno a ha h

end Verif.Linear

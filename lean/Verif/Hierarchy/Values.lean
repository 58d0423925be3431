import Verif.Linear.Separate
import Verif.SdpState.Props
/-!
More moments and more values given to `set_values` never make fewer moments known, nor change a known value.
-/
namespace Verif.Hierarchy
open Verif.Common Verif.Moment Verif.SdpState
open Verif.State (Dict Mon get_set get_none mem_keys get_filter nodup_filter)
open Verif.SdpEnd (atomicKnowns_some)

variable {K : Type}

theorem mem_of_get {α : Type} [DecidableEq α] {d : Dict α Rat} {k : α} {x : Rat} (h : d.get k = some x) : (k, x) ∈ d := by
  induction d with
  | nil => simp at h
  | cons t d ih =>
    rw [State.get_cons] at h
    split at h
    · rename_i e
      have := Option.some.inj h
      subst this; subst e
      simp
    · exact List.mem_cons_of_mem _ (ih h)

/-- The value of a known atom is the value of the atom or of an atom whose adjoint it is. -/
theorem atomicKnowns_from (E : Env K) (known : Dict Mon Rat) (a : Atom) (x : Rat) (h : (atomicKnowns E known).get a = some x) :
    ∃ b, ([b], x) ∈ known ∧ (b = a ∨ E.dagger b = a) := by
  unfold atomicKnowns at h
  have hl : ∀ t ∈ (known.filterMap fun t => match t.1 with | [a] => some (a, t.2) | _ => none : Dict Atom Rat), ([t.1], t.2) ∈ known := by
    intro t ht
    obtain ⟨⟨m, v⟩, hu, h2⟩ := List.mem_filterMap.1 ht
    rcases m with _ | ⟨b, _ | ⟨c, m⟩⟩
    · simp at h2
    · simp only [Option.some.injEq] at h2
      subst h2
      exact hu
    · simp at h2
  generalize (known.filterMap fun t => match t.1 with | [a] => some (a, t.2) | _ => none : Dict Atom Rat) = l at h hl
  have : ∀ (l' : List (Atom × Rat)) (d : Dict Atom Rat), (∀ t ∈ l', ([t.1], t.2) ∈ known) →
      (∀ a x, d.get a = some x → ∃ b, ([b], x) ∈ known ∧ (b = a ∨ E.dagger b = a)) →
      ∀ a x, (l'.foldl (fun d t => d.set (E.dagger t.1) t.2) d).get a = some x → ∃ b, ([b], x) ∈ known ∧ (b = a ∨ E.dagger b = a) := by
    intro l'
    induction l' with
    | nil => intro d _ h; exact h
    | cons t l' ih =>
      intro d hl' hd
      rw [List.foldl_cons]
      apply ih _ fun u hu => hl' u (by simp [hu])
      intro a x hx
      rw [get_set] at hx
      split at hx
      · rename_i e
        exact ⟨t.1, by rw [← Option.some.inj hx]; exact hl' t (by simp), .inr e⟩
      · exact hd a x hx
  refine this l l hl ?_ a x h
  intro a x hx
  exact ⟨a, hl (a, x) (mem_of_get hx), .inl rfl⟩

/-- A known product stays known with the same value when more factors are known. -/
theorem evaluate_known_mono (A : AtomInfo) (dagger : Atom → Atom) (m : Mon) {k₁ k₂ : Atom → Option Rat} (h : ∀ a x, k₁ a = some x → k₂ a = some x)
    (hk : (evaluate (compoundSDP A dagger m) k₁ false).2.2 = .known) :
    (evaluate (compoundSDP A dagger m) k₂ false).2.2 = .known ∧ (evaluate (compoundSDP A dagger m) k₂ false).1 = (evaluate (compoundSDP A dagger m) k₁ false).1 := by
  obtain ⟨l, hl⟩ : ∃ l, compoundSDP A dagger m = compound A l := ⟨_, rfl⟩
  rw [hl] at hk ⊢
  have hall : ∀ f ∈ l, (k₁ f).isSome = true := by
    rcases (C25_status A l k₁ false).1.1 hk with h1 | ⟨h1, _⟩
    · exact h1
    · cases h1
  have hsame : ∀ f ∈ l, k₂ f = k₁ f := by
    intro f hf
    obtain ⟨x, hx⟩ := Option.isSome_iff_exists.1 (hall f hf)
    rw [hx, h f x hx]
  refine ⟨(C25_status A l k₂ false).1.2 (.inl fun f hf => by rw [hsame f hf]; exact hall f hf), ?_⟩
  rw [(evaluate_eq A l k₂ false).1, (evaluate_eq A l k₁ false).1]
  have e1 : (l.filter fun f => (k₂ f).isSome) = l.filter fun f => (k₁ f).isSome := List.filter_congr fun f hf => by rw [hsame f hf]
  rw [e1]
  congr 1
  exact List.map_congr_left fun f hf => by rw [hsame f (List.mem_filter.1 hf).1]

/-- The evaluation loop records every known product. -/
theorem evalLoop_known (E : Env K) (k : Dict Atom Rat) (ms : List Mon) (st : Dict Mon Rat × Dict Mon (Rat × Mon)) {m : Mon} (hm : m ∈ ms)
    (hk : (evaluate (compoundSDP E.info E.dagger m) k.get false).2.2 = .known) :
    (ms.foldl (evalMon E k false) st).1.get m = some (evaluate (compoundSDP E.info E.dagger m) k.get false).1 := by
  induction ms generalizing st with
  | nil => cases hm
  | cons n ms ih =>
    rw [List.foldl_cons]
    by_cases hms : m ∈ ms
    · exact ih _ hms
    · have e : m = n := (List.mem_cons.1 hm).resolve_right hms
      subst e
      refine (evalLoop_of E k false ms _).2.2 m _ hms ?_
      unfold evalMon
      simp only [hk]
      rw [get_set, if_pos rfl]

/-- What is left to evaluate only grows. -/
theorem remaining_mono {E₁ E₂ : Env K} (hinfo : E₁.info = E₂.info) (hdag : E₁.dagger = E₂.dagger) (hmom : ∀ m ∈ E₁.moments, m ∈ E₂.moments) {k₁ k₂ : Dict Atom Rat}
    (hk : ∀ a x, k₁.get a = some x → k₂.get a = some x) {m : Mon} (hm : m ∈ remainingMons E₁ k₁ false) (hkn : (evaluate (compoundSDP E₁.info E₁.dagger m) k₁.get false).2.2 = .known) :
    m ∈ remainingMons E₂ k₂ false := by
  have h1 : m ∈ E₁.moments ∧ (compoundSDP E₁.info E₁.dagger m).isAtomic = false := by
    unfold remainingMons at hm
    split at hm
    · simp only [Bool.not_false, if_true, List.mem_filter, Bool.and_eq_true, Bool.not_eq_true'] at hm
      exact ⟨hm.1, hm.2.1⟩
    · simp only [List.mem_filter, Bool.not_eq_true'] at hm
      exact hm
  rw [hinfo, hdag] at h1
  unfold remainingMons
  split
  · rename_i hall
    have hkb : (compoundSDP E₂.info E₂.dagger m).isKnowable = true := by
      have hk2 := hkn
      rw [hinfo, hdag] at hk2
      obtain ⟨l, hl⟩ : ∃ l, compoundSDP E₂.info E₂.dagger m = compound E₂.info l := ⟨_, rfl⟩
      rw [hl] at hk2 ⊢
      have hall' : ∀ f ∈ l, (k₁.get f).isSome = true := by
        rcases (C25_status E₂.info l k₁.get false).1.1 hk2 with h | ⟨h, _⟩
        · exact h
        · cases h
      show ((compound E₂.info l).factors.all E₂.info.knowable) = true
      rw [List.all_eq_true]
      intro f hf
      have hf' := (factors_perm E₂.info l).mem_iff.1 hf
      obtain ⟨x, hx⟩ := Option.isSome_iff_exists.1 (hall' f hf')
      exact List.all_eq_true.1 hall _ (mem_of_get (hk f x hx))
    simp only [Bool.not_false, if_true, List.mem_filter, Bool.and_eq_true, Bool.not_eq_true']
    exact ⟨hmom m h1.1, h1.2, hkb⟩
  · simp only [List.mem_filter, Bool.not_eq_true']
    exact ⟨hmom m h1.1, h1.2⟩

theorem zero_match (z : Option Mon) : (match z with | some z => Dict.set [] z 0 | none => ([] : Dict Mon Rat)) = (z.map fun z => Dict.set ([] : Dict Mon Rat) z 0).getD [] := by
  cases z <;> rfl

/-- The values before anything else is evaluated: one, zero and the values given. -/
def direct (E : Env K) (v : List (K × Option Rat)) : Dict Mon Rat :=
  assignValues E v (((E.zero.map fun z => Dict.set ([] : Dict Mon Rat) z 0).getD []).set one 1)

theorem valuesOf_direct (E : Env K) (v : List (K × Option Rat)) : (valuesOf E v false true).1 = direct E v := by
  unfold valuesOf direct
  dsimp only
  rw [← zero_match]
  split
  · rename_i h
    rw [List.isEmpty_iff.1 h]
    cases E.zero <;> rfl
  · cases E.zero <;> rfl

theorem isAtomic_short (A : AtomInfo) (dagger : Atom → Atom) {m : Mon} (h : m.length ≤ 1) : (compoundSDP A dagger m).isAtomic = true := by
  unfold compoundSDP
  dsimp only
  have key : ∀ l : List Atom, l.length ≤ 1 → (compound A l).isAtomic = true := by
    intro l hl
    show decide ((compound A l).factors.length ≤ 1) = true
    rw [decide_eq_true_eq, (factors_perm A l).length_eq]
    exact hl
  split
  · exact key _ (by rw [(sortBy_perm atomLe _).length_eq]; exact h)
  · exact key _ (by rw [(sortBy_perm atomLe _).length_eq, List.length_map]; exact h)

theorem direct_nodup (E : Env K) (v : List (K × Option Rat)) : (direct E v).keys.Nodup := by
  rw [← valuesOf_direct]
  exact (valuesOf_nodup E v false true).1

/-- **More moments, more values.** If the second program has the moments of the first, and every value given directly and every known atom of the first has the same value in the second, then so has
every known moment of the first which is a moment of the program. -/
theorem values_mono {E₁ E₂ : Env K} (hinfo : E₁.info = E₂.info) (hdag : E₁.dagger = E₂.dagger) (hmom : ∀ m ∈ E₁.moments, m ∈ E₂.moments) {v₁ v₂ : List (K × Option Rat)} (o : Bool)
    (he : v₂.isEmpty = true → v₁.isEmpty = true) (hD : ∀ m x, (direct E₁ v₁).get m = some x → (direct E₂ v₂).get m = some x)
    (hA : ∀ a x, (atomicKnowns E₁ (direct E₁ v₁)).get a = some x → (atomicKnowns E₂ (direct E₂ v₂)).get a = some x) (hlen : ∀ m ∈ (direct E₁ v₁).keys, m.length ≤ 1)
    {m : Mon} {x : Rat} (hm : m ∈ E₁.moments) (h : (valuesOf E₁ v₁ false o).1.get m = some x) : (valuesOf E₂ v₂ false o).1.get m = some x := by
  have hof : ∀ (E : Env K) (v : List (K × Option Rat)), (valuesOf E v false o).1 = if v.isEmpty ∨ o = true then direct E v
      else ((remainingMons E (atomicKnowns E (direct E v)) false).foldl (evalMon E (atomicKnowns E (direct E v)) false) ((direct E v).filter fun t => decide (t.1 ∈ E.moments), [])).1 := by
    intro E v
    have hd := valuesOf_direct E v
    unfold valuesOf at hd ⊢
    dsimp only at hd ⊢
    by_cases hv : v.isEmpty = true
    · rw [if_pos hv] at hd ⊢
      rw [if_pos (.inl hv)]
      exact hd
    · rw [if_neg hv, if_pos rfl] at hd
      rw [if_neg hv]
      have hd' : assignValues E v _ = direct E v := hd
      rw [hd']
      cases o
      · rw [if_neg (by simp), if_neg (by simpa using hv)]
      · rw [if_pos rfl, if_pos (.inr rfl)]
  have hdirect : (direct E₁ v₁).get m = some x → (valuesOf E₂ v₂ false o).1.get m = some x := by
    intro h1
    have h2 := hD m x h1
    rw [hof]
    split
    · exact h2
    · refine (evalLoop_of E₂ _ false _ _).2.2 m x ?_ ?_
      · intro hr
        have hat := isAtomic_short E₂.info E₂.dagger (hlen m ((mem_keys _ _).2 ⟨x, h1⟩))
        unfold remainingMons at hr
        split at hr
        · simp [hat] at hr
        · simp [hat] at hr
      · exact (get_filter _ _ (direct_nodup E₂ v₂) m x).2 ⟨h2, by simpa using hmom m hm⟩
  rw [hof] at h
  split at h
  · exact hdirect h
  · rename_i hne
    rcases (evalLoop_of E₁ _ false _ _).1 m x h with h1 | ⟨h1, h2, h3⟩
    · exact hdirect ((get_filter _ _ (direct_nodup E₁ v₁) m x).1 h1).1
    · have hne2 : ¬ (v₂.isEmpty = true ∨ o = true) := by
        push Not at hne ⊢
        exact ⟨fun h => hne.1 (he h), hne.2⟩
      rw [hof, if_neg hne2]
      have hr := remaining_mono hinfo hdag hmom hA h1 h2
      obtain ⟨q1, q2⟩ := evaluate_known_mono E₁.info E₁.dagger m hA h2
      rw [hinfo, hdag] at q1
      rw [evalLoop_known E₂ _ _ _ hr q1, h3, ← q2, hinfo, hdag]

end Verif.Hierarchy

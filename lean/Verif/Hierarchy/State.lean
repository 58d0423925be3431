import Verif.Hierarchy.Known
import Verif.SdpEnd.Bounds
import Verif.SdpEnd.State
/-!
The values and the default bounds in force after `set_distribution`, for two generating sets one of which contains the other.
-/
namespace Verif.Hierarchy
open Verif.Common Verif.Canon Verif.Canon.Spec Verif.Scenario Verif.Components Verif.Moment Verif.MomentMatrix Verif.SymMM Verif.SdpRepr Verif.SdpEnd Verif.SdpNames Verif.Symmetry Verif.Generate Verif.Physical
open Verif.State (Dict Mon get_set get_none mem_keys get_filter)
open Verif.SdpState (Call Args SolverOut atomicKnowns one valuesOf)
open Verif.EndToEnd (Input)

variable {I : Input} {ch : Choice} {name : Atom → String} {cols cols₁ cols₂ : List (List Nat)} {B B₁ B₂ : Built}

/-- The atoms known after `set_distribution`, and their adjoints. -/
theorem atoms_mono (hch : UsualChoice ch I) (hV₁ : Setup I cols₁ ch name B₁) (hV₂ : Setup I cols₂ ch name B₂) (hsub : ∀ m ∈ cols₁, m ∈ cols₂) {P : List Nat → Rat} {v₁ v₂ : List (Mon × Option Rat)}
    (hv₁ : distributionValues I B₁ P = some v₁) (hv₂ : distributionValues I B₂ P = some v₂) {a : Atom} {x : Rat} (h : (atomicKnowns B₁.env (direct B₁.env v₁)).get a = some x) :
    (atomicKnowns B₂.env (direct B₂.env v₂)).get a = some x := by
  have hd : ∀ {cols : List (List Nat)} {B : Built}, Setup I cols ch name B → B.env.dagger = ch.dagger := by
    intro cols B hV
    obtain ⟨_, _, _, _, _, _, _, _, _, _, henv⟩ := build_some hV.built
    rw [henv]
  obtain ⟨b, hb, hba⟩ := atomicKnowns_from _ _ _ _ h
  have hb1 := (direct_iff hV₁ hv₁ [b] x).1 ((State.get_of_mem _ (direct_nodup _ _) _ _).1 hb)
  have hb2 := (direct_iff hV₂ hv₂ [b] x).2 ⟨given_mono hch hV₁ hV₂ hsub hb1.1, hb1.2⟩
  have hsome : ((atomicKnowns B₂.env (direct B₂.env v₂)).get a).isSome = true := by
    rw [atomicKnowns_some]
    rcases hba with rfl | e
    · exact .inl ((mem_keys _ _).2 ⟨x, hb2⟩)
    · exact .inr ⟨b, (mem_keys _ _).2 ⟨x, hb2⟩, by rw [hd hV₂, ← e, hd hV₁]⟩
  obtain ⟨y, hy⟩ := Option.isSome_iff_exists.1 hsome
  obtain ⟨b', hb', hba'⟩ := atomicKnowns_from _ _ _ _ hy
  have hb3 := (State.get_of_mem _ (direct_nodup _ _) _ _).1 hb'
  have hb3' := (direct_iff hV₂ hv₂ [b'] y).1 hb3
  obtain ⟨i1, l1⟩ := given_least hch hV₂ (given_mono hch hV₁ hV₂ hsub hb1.1)
  obtain ⟨i2, l2⟩ := given_least hch hV₂ hb3'.1
  rw [hd hV₁] at hba
  rw [hd hV₂] at hba'
  have hbb : b = b' := by
    rcases hba with e | e <;> rcases hba' with e' | e'
    · exact e.trans e'.symm
    · have q1 : ch.dagger b' = b := e'.trans e.symm
      rw [q1] at l2
      rw [← q1, i2, q1] at l1
      have := tupleLe_antisymm _ _ l1 l2
      simpa using this
    · have q1 : ch.dagger b = b' := e.trans e'.symm
      rw [q1] at l1
      rw [← q1, i1, q1] at l2
      have := tupleLe_antisymm _ _ l1 l2
      simpa using this
    · rw [← i1, e, ← e', i2]
  subst hbb
  rw [hy, ← hb2, hb3]

theorem given_short (hch : UsualChoice ch I) (hV : Setup I cols ch name B) {m : Mon} (h : Given I B m) : m.length ≤ 1 := by
  rcases h with ⟨h, _⟩ | rfl | ⟨rfl, _⟩
  · rcases Linear.atomKey_distribution hV hch h with rfl | ⟨a, rfl, _⟩ <;> simp
  · simp
  · simp

/-- A single known moment has the value given directly. -/
theorem known_short {E : SdpState.Env Mon} {v : List (Mon × Option Rat)} (o : Bool) {m : Mon} {x : Rat} (hlen : m.length ≤ 1) (h : (valuesOf E v false o).1.get m = some x) :
    (direct E v).get m = some x := by
  have hd := valuesOf_direct E v
  unfold valuesOf at hd h
  dsimp only at hd h
  by_cases hv : v.isEmpty = true
  · rw [if_pos hv] at hd h
    rw [← hd]; exact h
  · rw [if_neg hv, if_pos rfl] at hd
    rw [if_neg hv] at h
    have hd' : SdpState.assignValues E v _ = direct E v := hd
    rw [hd'] at h
    cases o
    · rw [if_neg (by simp)] at h
      rcases (SdpState.evalLoop_of E _ false _ _).1 m x h with h1 | ⟨h1, _⟩
      · exact ((get_filter _ _ (direct_nodup E v) m x).1 h1).1
      · exfalso
        have hat := isAtomic_short E.info E.dagger hlen
        unfold SdpState.remainingMons at h1
        split at h1
        · simp [hat] at h1
        · simp [hat] at h1
    · rw [if_pos rfl] at h
      exact h

/-- A single moment given directly is known. -/
theorem short_known {E : SdpState.Env Mon} {v : List (Mon × Option Rat)} (o : Bool) {m : Mon} {x : Rat} (hm : m ∈ E.moments) (hlen : m.length ≤ 1) (h : (direct E v).get m = some x) :
    (valuesOf E v false o).1.get m = some x := by
  have hd := valuesOf_direct E v
  unfold valuesOf at hd ⊢
  dsimp only at hd ⊢
  by_cases hv : v.isEmpty = true
  · rw [if_pos hv] at hd ⊢
    rw [hd]; exact h
  · rw [if_neg hv, if_pos rfl] at hd
    rw [if_neg hv]
    have hd' : SdpState.assignValues E v _ = direct E v := hd
    rw [hd']
    cases o
    · rw [if_neg (by simp)]
      refine (SdpState.evalLoop_of E _ false _ _).2.2 m x ?_ ?_
      · intro hr
        have hat := isAtomic_short E.info E.dagger hlen
        unfold SdpState.remainingMons at hr
        split at hr
        · simp [hat] at hr
        · simp [hat] at hr
      · exact (get_filter _ _ (direct_nodup E v) m x).2 ⟨h, by simpa using hm⟩
    · rw [if_pos rfl]
      exact h

/-- The known values, with the same option. -/
theorem known_mono_same (hch : UsualChoice ch I) (hV₁ : Setup I cols₁ ch name B₁) (hV₂ : Setup I cols₂ ch name B₂) (hsub : ∀ m ∈ cols₁, m ∈ cols₂) {P : List Nat → Rat} {v₁ v₂ : List (Mon × Option Rat)}
    (hv₁ : distributionValues I B₁ P = some v₁) (hv₂ : distributionValues I B₂ P = some v₂) (o : Bool) {m : Mon} {x : Rat} (hm : m ∈ B₁.env.moments)
    (h : (valuesOf B₁.env v₁ false o).1.get m = some x) : (valuesOf B₂.env v₂ false o).1.get m = some x := by
  obtain ⟨e1, e2⟩ := env_same hV₁ hV₂
  refine values_mono e1 e2 (moments_mono hch hV₁ hV₂ hsub) o ?_ ?_ (fun a x h => atoms_mono hch hV₁ hV₂ hsub hv₁ hv₂ h) ?_ hm h
  · intro he
    rw [List.isEmpty_iff] at he ⊢
    rw [List.eq_nil_iff_forall_not_mem]
    intro t ht
    obtain ⟨y, q1, q2, q3, q4⟩ := (values_iff hv₁ t).1 ht
    have := (values_iff hv₂ t).2 ⟨y, q1, atomics_mono hch hV₁ hV₂ hsub q2, q3, q4⟩
    rw [he] at this
    cases this
  · intro m x hx
    obtain ⟨g, hx⟩ := (direct_iff hV₁ hv₁ m x).1 hx
    exact (direct_iff hV₂ hv₂ m x).2 ⟨given_mono hch hV₁ hV₂ hsub g, hx⟩
  · intro m hm
    obtain ⟨x, hx⟩ := (mem_keys _ _).1 hm
    exact given_short hch hV₁ ((direct_iff hV₁ hv₁ m x).1 hx).1

/-- With `shared_randomness=True`, exactly the values given directly are known. -/
theorem valuesOf_shared (E : SdpState.Env Mon) (v : List (Mon × Option Rat)) : (valuesOf E v false true).1 = direct E v := by
  have hd := valuesOf_direct E v
  unfold valuesOf at hd ⊢
  dsimp only at hd ⊢
  by_cases hv : v.isEmpty = true
  · rw [if_pos hv] at hd ⊢
    exact hd
  · rw [if_neg hv, if_pos rfl] at hd
    rw [if_neg hv, if_pos rfl]
    exact hd

/-- **The known values.** More moments are known with a larger generating set, and without shared randomness. -/
theorem known_mono (hch : UsualChoice ch I) (hV₁ : Setup I cols₁ ch name B₁) (hV₂ : Setup I cols₂ ch name B₂) (hsub : ∀ m ∈ cols₁, m ∈ cols₂) {P : List Nat → Rat} {v₁ v₂ : List (Mon × Option Rat)}
    (hv₁ : distributionValues I B₁ P = some v₁) (hv₂ : distributionValues I B₂ P = some v₂) {o₁ o₂ : Bool} (ho : o₂ = true → o₁ = true) {m : Mon} {x : Rat} (hm : m ∈ B₁.env.moments)
    (h : (valuesOf B₁.env v₁ false o₁).1.get m = some x) : (valuesOf B₂.env v₂ false o₂).1.get m = some x := by
  cases o₁ <;> cases o₂
  · exact known_mono_same hch hV₁ hV₂ hsub hv₁ hv₂ false hm h
  · exact absurd (ho rfl) (by decide)
  · rw [valuesOf_shared] at h
    obtain ⟨g, hx⟩ := (direct_iff hV₁ hv₁ m x).1 h
    exact short_known false (moments_mono hch hV₁ hV₂ hsub m hm) (given_short hch hV₁ g) ((direct_iff hV₂ hv₂ m x).2 ⟨given_mono hch hV₁ hV₂ hsub g, hx⟩)
  · exact known_mono_same hch hV₁ hV₂ hsub hv₁ hv₂ true hm h

/-! ### Bounds -/

theorem boundLoop_keep (good : Rat → Rat → Bool) (known b : Dict Mon Rat) {m : Mon} (hm : m ∉ known.keys) {b' : Dict Mon Rat}
    (h : SdpState.boundLoop good known b = .ok b' ∨ SdpState.boundLoop good known b = .error b') : b'.get m = b.get m := by
  induction known generalizing b with
  | nil =>
    rcases h with h | h
    · unfold SdpState.boundLoop at h
      cases h; rfl
    · unfold SdpState.boundLoop at h
      cases h
  | cons t l ih =>
    have hm' : t.1 ≠ m ∧ m ∉ Dict.keys l := by
      refine ⟨fun e => hm (by rw [← e]; simp [State.Dict.keys]), fun h => hm ?_⟩
      unfold State.Dict.keys at h ⊢
      simp [h]
    have hstep : ∀ b1, SdpState.boundStep good b t = .ok b1 ∨ SdpState.boundStep good b t = .error b1 → b1.get m = b.get m := by
      intro b1 h1
      unfold SdpState.boundStep at h1
      split at h1
      · rcases h1 with h1 | h1 <;> cases h1
        rfl
      · split at h1
        · rcases h1 with h1 | h1 <;> cases h1
          rw [SdpState.get_erase, if_neg hm'.1]
        · rcases h1 with h1 | h1 <;> cases h1
          rfl
    unfold SdpState.boundLoop at h
    split at h
    · rename_i b1 hb1
      rw [ih b1 hm'.2 h, hstep b1 (.inl hb1)]
    · rename_i b1 hb1
      rcases h with h | h <;> cases h
      exact hstep _ (.inr hb1)

theorem updateLower_keep (s : SdpState.St) {m : Mon} (hm : m ∉ s.known.keys) : (SdpState.updateLower s).1.lower.get m = s.lower.get m := by
  unfold SdpState.updateLower
  split
  · rename_i b hb; exact boundLoop_keep _ _ _ hm (.inl hb)
  · rename_i b hb; exact boundLoop_keep _ _ _ hm (.inr hb)

theorem cleanup_keep (E : SdpState.Env Mon) (hE : E.supports = false) (s : SdpState.St) {m : Mon} (hm : m ∉ s.known.keys) : (SdpState.cleanup E s).1.lower.get m = s.lower.get m := by
  have hss : SdpState.supportsStep E s = s := by unfold SdpState.supportsStep; rw [hE]; simp
  rw [← updateLower_keep s hm]
  have hat : ∀ (r : SdpState.Out) (f : SdpState.St → SdpState.Out), (∀ s, (f s).1.lower = s.lower) → (SdpState.andThen r f).1.lower = r.1.lower := by
    intro r f hf
    unfold SdpState.andThen
    split
    · exact hf _
    · rfl
  unfold SdpState.cleanup
  rw [hss, hat, hat, hat]
  · intro s; unfold SdpState.updateUpper; split <;> rfl
  · intro s; rfl
  · intro s; rfl

/-- A default lower bound of a moment which is neither one nor zero is in force at the start. -/
theorem init_keep (E : SdpState.Env Mon) (hE : E.supports = false) {m : Mon} (h1 : m ≠ []) (h2 : ∀ z, E.zero = some z → m ≠ z) : (SdpState.init E).lower.get m = (SdpState.defaultLower E).get m := by
  unfold SdpState.init SdpState.setValues
  simp only [List.isEmpty_nil, if_true]
  rw [cleanup_keep E hE]
  · unfold SdpState.setObjective
    simp only [Option.isSome_none, Bool.and_false]
    rfl
  · unfold SdpState.resetValues
    dsimp only
    rw [mem_keys]
    rintro ⟨x, hx⟩
    rw [get_set, if_neg (fun e => h1 e.symm)] at hx
    split at hx
    · rename_i z hz
      rw [get_set, if_neg (fun e => h2 z hz e.symm)] at hx
      simp at hx
    · simp at hx

end Verif.Hierarchy

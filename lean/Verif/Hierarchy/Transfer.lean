import Verif.Hierarchy.State
/-!
The program of a larger generating set is at least as strong: its solutions solve the program of the smaller one.
-/
namespace Verif.Hierarchy
open Verif.Common Verif.Canon Verif.Canon.Spec Verif.Scenario Verif.Components Verif.Moment Verif.MomentMatrix Verif.SymMM Verif.SdpRepr Verif.SdpEnd Verif.SdpNames Verif.Symmetry Verif.Generate Verif.Physical
open Verif.State (Dict Mon get_set get_none mem_keys get_filter)
open Verif.SdpState (Call Args SolverOut atomicKnowns one valuesOf)
open Verif.EndToEnd (Input)

variable {I : Input} {ch : Choice} {name : Atom → String} {cols cols₁ cols₂ : List (List Nat)} {B B₁ B₂ : Built}

/-- Two states with the same values and bounds. -/
structure SameConstraints (s t : SdpState.St) : Prop where
  known : s.known = t.known
  semi : s.semi = t.semi
  lower : s.lower = t.lower
  upper : s.upper = t.upper

/-- What is in force after `set_distribution` on a new program. -/
structure InForce (B : Built) (v : List (Mon × Option Rat)) (o : Bool) (s : SdpState.St) : Prop where
  known : s.known = (valuesOf B.env v false o).1
  semi : s.semi = []
  lower : ∀ m x, s.lower.get m = some x → m ∈ B.env.hermitian ∧ x = 0
  nodup : s.lower.keys.Nodup
  upper : s.upper = []

theorem dict_nil {α β : Type} [DecidableEq α] {d : Dict α β} (h : ∀ m x, d.get m = some x → False) : d = [] := by
  cases d with
  | nil => rfl
  | cons t d => exact absurd ((mem_keys (t :: d : Dict α β) t.1).1 (by simp [State.Dict.keys])) (by rintro ⟨x, hx⟩; exact h _ _ hx)

theorem in_force (hV : Setup I cols ch name B) {P : List Nat → Rat} {o : Bool} {c : Call Mon} (hc : setDistribution I B P false o = some c) (solver : Args → SolverOut) :
    ∃ v, distributionValues I B P = some v ∧ InForce B v o (SdpState.run B.env solver [c]) := by
  have hsup : B.env.supports = false := by obtain ⟨_, _, _, _, _, _, _, _, _, _, henv⟩ := build_some hV.built; rw [henv]
  obtain ⟨v, hv, rfl⟩ := Option.map_eq_some_iff.1 (show Option.map _ _ = _ from hc)
  refine ⟨v, hv, ?_, ?_, ?_, (SdpState.run_good B.env solver _).lower, ?_⟩
  · show (SdpState.setValues B.env v false o (SdpState.init B.env)).1.known = _
    obtain ⟨b, e⟩ := SdpState.setValues_eq B.env v false o (SdpState.init B.env)
    rw [e]
    have hg := SdpState.init_good B.env
    obtain ⟨n1, n2⟩ := SdpState.valuesOf_nodup B.env v false o
    have hgd : ∀ b, SdpState.Good { SdpState.resetValues B.env (SdpState.init B.env) with known := (valuesOf B.env v false o).1, semi := (valuesOf B.env v false o).2, useLpi := b } :=
      fun b => ⟨n1, n2, hg.lower, hg.upper, hg.objective, hg.one⟩
    exact (SdpState.cleanup_values B.env hsup _ (hgd b)).1
  · refine dict_nil fun m x hx => ?_
    rw [semi_nil B.env hsup solver [.setValues v false o] (by intro c hc; rw [List.mem_singleton.1 hc])] at hx
    cases hx
  · exact (run_bounds (PL := fun m x => m ∈ B.env.hermitian ∧ x = 0) (PU := fun _ _ => False) B.env hsup solver (fun m hm => ⟨hm, rfl⟩) [.setValues v false o]
      (by intro c hc l e; rw [List.mem_singleton.1 hc] at e; cases e) (by intro c hc l e; rw [List.mem_singleton.1 hc] at e; cases e)).lower
  · refine dict_nil fun m x hx => ?_
    exact (run_bounds (PL := fun m x => m ∈ B.env.hermitian ∧ x = 0) (PU := fun _ _ => False) B.env hsup solver (fun m hm => ⟨hm, rfl⟩) [.setValues v false o]
      (by intro c hc l e; rw [List.mem_singleton.1 hc] at e; cases e) (by intro c hc l e; rw [List.mem_singleton.1 hc] at e; cases e)).upper m x hx

theorem hermitian_moments (hV : Setup I cols ch name B) {m : Mon} (hm : m ∈ B.env.hermitian) : m ∈ B.env.moments := by
  obtain ⟨_, _, _, _, _, _, _, _, _, _, henv⟩ := build_some hV.built
  rw [henv] at hm ⊢
  have hm : m ∈ hermitianMoments I ch (B.index.map Prod.snd) := hm
  unfold hermitianMoments at hm
  split at hm
  · exact hm
  · exact (List.mem_filter.1 hm).1

theorem hermitian_mono (hch : UsualChoice ch I) (hV₁ : Setup I cols₁ ch name B₁) (hV₂ : Setup I cols₂ ch name B₂) (hsub : ∀ m ∈ cols₁, m ∈ cols₂) {m : Mon} (hm : m ∈ B₁.env.hermitian) :
    m ∈ B₂.env.hermitian := by
  have h2 := moments_mono hch hV₁ hV₂ hsub m (hermitian_moments hV₁ hm)
  obtain ⟨_, _, _, _, _, _, _, _, _, _, henv⟩ := build_some hV₁.built
  obtain ⟨_, _, _, _, _, _, _, _, _, _, henv'⟩ := build_some hV₂.built
  rw [henv] at hm
  rw [henv'] at h2 ⊢
  have hm : m ∈ hermitianMoments I ch (B₁.index.map Prod.snd) := hm
  show m ∈ hermitianMoments I ch (B₂.index.map Prod.snd)
  have h2 : m ∈ B₂.index.map Prod.snd := h2
  unfold hermitianMoments at hm ⊢
  split at hm
  · rename_i h; rw [if_pos h]; exact h2
  · rename_i h; rw [if_neg h]; exact List.mem_filter.2 ⟨h2, (List.mem_filter.1 hm).2⟩

/-- If `set_distribution` was accepted, every Hermitian moment is known to be non-negative, or bounded below by zero. -/
theorem nonneg_in_force (hch : UsualChoice ch I) (hV : Setup I cols ch name B) {P : List Nat → Rat} {o : Bool} {v : List (Mon × Option Rat)} (hv : distributionValues I B P = some v)
    (solver : Args → SolverOut) (hok : SdpState.Ok B.env solver [.setValues v false o]) {m : Mon} (hm : m ∈ B.env.hermitian) :
    (∃ x, (SdpState.run B.env solver [.setValues v false o]).known.get m = some x ∧ 0 ≤ x) ∨ (SdpState.run B.env solver [.setValues v false o]).lower.get m = some 0 := by
  have hsup : B.env.supports = false := by obtain ⟨_, _, _, _, _, _, _, _, _, _, henv⟩ := build_some hV.built; rw [henv]
  have hg := SdpState.init_good B.env
  obtain ⟨b, e⟩ := SdpState.setValues_eq B.env v false o (SdpState.init B.env)
  obtain ⟨n1, n2⟩ := SdpState.valuesOf_nodup B.env v false o
  have hgd : ∀ b, SdpState.Good { SdpState.resetValues B.env (SdpState.init B.env) with known := (valuesOf B.env v false o).1, semi := (valuesOf B.env v false o).2, useLpi := b } :=
    fun b => ⟨n1, n2, hg.lower, hg.upper, hg.objective, hg.one⟩
  have hn := hok [] _ [] rfl
  have hn : (SdpState.setValues B.env v false o (SdpState.init B.env)).2 = none := hn
  have hk : (SdpState.setValues B.env v false o (SdpState.init B.env)).1.known = (valuesOf B.env v false o).1 := by
    rw [e]
    exact (SdpState.cleanup_values B.env hsup _ (hgd b)).1
  show (∃ x, (SdpState.setValues B.env v false o (SdpState.init B.env)).1.known.get m = some x ∧ 0 ≤ x) ∨ (SdpState.setValues B.env v false o (SdpState.init B.env)).1.lower.get m = some 0
  by_cases hmk : m ∈ (valuesOf B.env v false o).1.keys
  · left
    obtain ⟨x, hx⟩ := (mem_keys _ _).1 hmk
    refine ⟨x, by rw [hk]; exact hx, ?_⟩
    by_cases h1 : m = []
    · subst h1
      have := ((direct_iff hV hv [] x).1 (known_short o (by simp) hx)).2
      rw [marginal_one] at this
      rw [← Option.some.inj this]; norm_num
    by_cases h2 : m = [[0]]
    · subst h2
      have := ((direct_iff hV hv [[0]] x).1 (known_short o (by simp) hx)).2
      rw [marginal_zero] at this
      rw [← Option.some.inj this]
    have hlo : (SdpState.init B.env).lower.get m = some 0 := by
      rw [init_keep B.env hsup h1 (fun z hz => by rw [zero_eq hV hz]; exact h2), SdpState.defaultLower_get, if_pos hm]
    have hss : ∀ s : SdpState.St, SdpState.supportsStep B.env s = s := fun s => by unfold SdpState.supportsStep; rw [hsup]; simp
    rw [e] at hn
    obtain ⟨lo, up, pr, se, _, _, _, _, _, _, q7⟩ := SdpState.cleanup_eq B.env _ (SdpState.supportsStep_good B.env _ (hgd b))
    obtain ⟨_, z2, _⟩ := q7 hn
    rw [hss] at z2
    exact z2 m x 0 hx hlo
  · have hmm := hermitian_moments hV hm
    by_cases h1 : m = []
    · subst h1
      exact absurd ((mem_keys _ _).2 ⟨1, short_known o hmm (by simp) ((direct_iff hV hv [] 1).2 ⟨.inr (.inl rfl), marginal_one P⟩)⟩) hmk
    by_cases h2 : m = [[0]]
    · subst h2
      exact absurd ((mem_keys _ _).2 ⟨0, short_known o hmm (by simp) ((direct_iff hV hv [[0]] 0).2 ⟨.inr (.inr ⟨rfl, (zero_iff hch hV).1 hmm⟩), marginal_zero P⟩)⟩) hmk
    right
    rw [e, cleanup_keep B.env hsup _ hmk]
    show (SdpState.init B.env).lower.get m = some 0
    rw [init_keep B.env hsup h1 (fun z hz => by rw [zero_eq hV hz]; exact h2), SdpState.defaultLower_get, if_pos hm]

end Verif.Hierarchy

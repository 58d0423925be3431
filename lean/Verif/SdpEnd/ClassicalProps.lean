import Verif.SdpEnd.Classical
import Verif.SdpEnd.Props
import Verif.SdpEnd.CertProps
import Verif.EndToEnd.Dag
/-!
C54 and C55: the semidefinite program and its certificates are sound for classical causal models.
-/
namespace Verif.SdpEnd
open Verif.Common Verif.Canon Verif.Canon.Spec Verif.Scenario Verif.Components Verif.Moment Verif.MomentMatrix Verif.Normalization
open Verif.State (Dict Mon)
open Verif.EndToEnd

variable {I : Input} {Λ : Type} [Fintype Λ]

/-- Parties have at least one outcome. -/
theorem outcomes_one (hI : I.Accepted) : ∀ p, p < I.scenario.nParties → 1 ≤ I.scenario.outcomes p := by
  intro p hp
  have hlt : p < I.outcomes.length := by rw [hI.outcomes_length]; exact hp
  show 1 ≤ I.outcomes.getD p 0
  rw [List.getD_eq_getElem _ _ hlt]
  exact hI.outcomes_pos _ (List.getElem_mem hlt)

/-- The model of the inflated network given by a classical causal model. -/
noncomputable def classical (hI : I.Accepted) (hs : Sourced I.scenario) (M : ClassicalModel I.scenario I.observed Λ ℝ) : InflatedModel I (Observable I Λ) :=
  ofClassical M (outcomes_one hI) hI hs

theorem operators_succ (e : List (Rank I.scenario)) : operators I (e.map fun r => r.1 + 1) = I.operators (e.map (·.1)) := by
  unfold operators Input.operators
  rw [List.filterMap_map, List.filterMap_map]
  apply List.filterMap_congr
  intro r _
  simp

theorem isZero_succ (e : List (Rank I.scenario)) : isZero (e.map fun r => r.1 + 1) = false := by
  unfold isZero
  rw [Bool.eq_false_iff]
  intro h
  rw [List.contains_iff_mem] at h
  obtain ⟨r, _, hr⟩ := List.mem_map.1 h
  omega

/-- The value of an atom is a probability or zero. -/
theorem classical_val (hI : I.Accepted) (hs : Sourced I.scenario) (M : ClassicalModel I.scenario I.observed Λ ℝ) (e : List (Rank I.scenario)) :
    (classical hI hs M).val (e.map fun r => r.1 + 1) = (((if Consistent (question I.scenario) e then M.event (e.dedup.map (·.1)) else 0 : ℝ)) : ℂ) := by
  unfold InflatedModel.val
  rw [if_pos]
  · show ((mean M _ : ℝ) : ℂ) = _
    exact congrArg _ (mean_word M (outcomes_one hI) hI e)
  · intro x hx
    obtain ⟨r, _, rfl⟩ := List.mem_map.1 hx
    have := r.2
    unfold nOps
    omega

/-- A distribution generated by a classical model gives the knowable moments their values. -/
theorem classical_realises (hI : I.Accepted) (hs : Sourced I.scenario) (M : ClassicalModel I.scenario I.observed Λ ℝ) {P : List Nat → Rat} (hP : I.Realises M P) :
    (classical hI hs M).Realises P := by
  intro a hr hne h0 hsort hk
  rcases word_cases hr with h | ⟨e, rfl⟩
  · exact absurd h h0
  have hee : e ≠ [] := by rintro rfl; simp at hne
  have hgood : GoodRanks I.scenario (e.map (·.1)) := by
    refine ⟨?_, ?_, by simpa using hee⟩
    · rw [List.pairwise_map] at hsort ⊢
      exact hsort.imp fun h => by omega
    · intro x hx
      obtain ⟨r, _, rfl⟩ := List.mem_map.1 hx
      exact r.2
  have hemp : (e.map fun r => r.1 + 1).isEmpty = false := by simpa using hee
  have hemp' : (e.map fun r => r.1).isEmpty = false := by simpa using hee
  have hkn : I.knowable (e.map (·.1)) = true := by
    unfold knowable doConditional at hk
    rw [hemp, isZero_succ, operators_succ] at hk
    unfold Input.knowable Input.doConditional
    rw [hemp']
    simp only [Bool.false_or, Bool.and_eq_true] at hk ⊢
    exact ⟨hk.1.1, hk.2⟩
  obtain ⟨v, hv, he⟩ := atomMarginal_sound hI M hP hgood hkn
  refine ⟨v, ?_, ?_⟩
  · rw [← hv]
    unfold atomMarginal rectified Input.atomMarginal Input.rectified
    rw [hemp, hemp', isZero_succ, operators_succ]
    rfl
  · rw [classical_val, if_pos]
    · have hnd : e.Nodup := by
        rw [List.pairwise_map] at hsort
        exact hsort.imp fun h e => by rw [e] at h; omega
      rw [List.dedup_eq_self.2 hnd, ← he]
      simp
    · obtain ⟨_, hnd, _⟩ := knowable_event hI hgood hkn
      intro a ha b hb hq
      have hp : I.scenario.lexorder[a].party = I.scenario.lexorder[b].party := congrArg (fun k => k.1.1) hq
      have hops : I.operators (e.map (·.1)) = e.map fun r => I.scenario.lexorder[r] := by
        have hsp := operators_spec (I := I) hgood.lt
        have : (e.map fun r => I.scenario.lexorder[r]).map some = (I.operators (e.map (·.1))).map some := by
          rw [← hsp, List.map_map, List.map_map]
          apply List.map_congr_left
          intro r _
          show some I.scenario.lexorder[r] = I.scenario.lexorder[r.1]?
          rw [List.getElem?_eq_getElem r.2]
          rfl
        exact (List.map_injective_iff.2 (Option.some_injective _) this).symm
      rw [hops, List.map_map] at hnd
      exact List.inj_on_of_nodup_map hnd ha hb hp

/-- All moments of a classical model are non-negative. -/
theorem classical_nonneg (hI : I.Accepted) (hs : Sourced I.scenario) (M : ClassicalModel I.scenario I.observed Λ ℝ) (m : Mon) : 0 ≤ (classical hI hs M).value m := by
  have hv : ∀ a : Atom, ∃ x : ℝ, 0 ≤ x ∧ (classical hI hs M).val a = ((x : ℝ) : ℂ) := by
    intro a
    by_cases hr : InRange I a
    · rcases word_cases hr with h | ⟨e, rfl⟩
      · refine ⟨0, le_refl _, ?_⟩
        have := op_zero (outcomes_one hI) (Λ := Λ) h
        unfold InflatedModel.val
        rw [if_pos hr]
        show state M (op (operatorAt (outcomes_one hI) Λ) a) = _
        rw [this, map_zero]
        simp
      · refine ⟨_, ?_, classical_val hI hs M e⟩
        split
        · exact M.event_nonneg _
        · exact le_refl _
    · exact ⟨0, le_refl _, by unfold InflatedModel.val; rw [if_neg hr]; simp⟩
  have hm : ∃ x : ℝ, 0 ≤ x ∧ (classical hI hs M).moment m = ((x : ℝ) : ℂ) := by
    unfold InflatedModel.moment
    induction m with
    | nil => exact ⟨1, zero_le_one, by simp⟩
    | cons a m ih =>
      obtain ⟨x, hx, e⟩ := ih
      obtain ⟨y, hy, e'⟩ := hv a
      exact ⟨y * x, mul_nonneg hy hx, by rw [List.map_cons, List.prod_cons, e, e', Complex.ofReal_mul]⟩
  obtain ⟨x, hx, e⟩ := hm
  unfold InflatedModel.value
  rw [e, Complex.ofReal_re]
  exact hx

end Verif.SdpEnd

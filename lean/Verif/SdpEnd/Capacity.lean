import Verif.SdpEnd.Factor
import Mathlib.Data.Fintype.BigOperators
import Mathlib.Data.Fintype.Option
/-!
With at most 254 copies of sources in total, no monomial has more than 255 independent factors (the capacity of the code's component labels, see C10).
-/
namespace Verif.SdpEnd
open Verif.Scenario Verif.Components Verif.Moment
open Verif.EndToEnd (Input)
open Verif.EndToEnd.ClassicalModel (Capacity)

/-- The total number of copies of sources in the inflation. -/
def copiesOf (S : Scenario) : Nat := ((List.range S.nSources).map fun s => max (S.level s) 1).sum

theorem capacity_of_copies (S : Scenario) (h : copiesOf S ≤ 254) {mon : List Nat} (hv : ∀ a ∈ mon, a < S.lexorder.length) : Capacity S mon := by
  classical
  intro reps hr hp
  let C := Option (Σ s : Fin S.nSources, Fin (max (S.level s) 1))
  have hcard : Fintype.card C = copiesOf S + 1 := by
    simp only [C, Fintype.card_option, Fintype.card_sigma, Fintype.card_fin]
    congr 1
    unfold copiesOf
    rw [← List.sum_ofFn, List.ofFn_eq_map]
    rw [← List.map_coe_finRange_eq_range, List.map_map]
    rfl
  -- every operator without copies, or one of its copies
  have hcode : ∀ r ∈ reps, ∃ c : C, ∀ x, S.lexorder[r]? = some x →
      (c = none → x.copies = List.replicate S.nSources 0) ∧ (∀ s k, c = some ⟨s, k⟩ → x.copies[s.val]? = some (k.val + 1)) := by
    intro r hrr
    have hlt := hv r (hr r hrr)
    have hx := List.getElem?_eq_getElem hlt
    have hval : Valid S S.lexorder[r] := (mem_lexorder S).1 (List.getElem_mem hlt)
    by_cases hz : S.lexorder[r].copies = List.replicate S.nSources 0
    · refine ⟨none, ?_⟩
      intro x hx'
      rw [hx, Option.some.injEq] at hx'
      subst hx'
      exact ⟨fun _ => hz, by simp⟩
    · have : ∃ s, ∃ hs : s < S.lexorder[r].copies.length, S.lexorder[r].copies[s] ≠ 0 := by
        by_contra hn
        push Not at hn
        apply hz
        apply List.ext_getElem
        · rw [hval.copies_len]; simp
        · intro i h1 h2
          rw [hn i h1]; simp
      obtain ⟨s, hs, h0⟩ := this
      have hok := hval.copies_ok s hs
      split at hok
      · have hs' : s < S.nSources := by rw [← hval.copies_len]; exact hs
        refine ⟨some ⟨⟨s, hs'⟩, ⟨S.lexorder[r].copies[s] - 1, by have h1 := hok.1; have h2 := hok.2; show _ < max (S.level s) 1; omega⟩⟩, ?_⟩
        intro x hx'
        rw [hx, Option.some.injEq] at hx'
        subst hx'
        refine ⟨by simp, ?_⟩
        intro s2 k e
        have e' := Option.some.inj e
        have e1 : s2 = ⟨s, hs'⟩ := (congrArg Sigma.fst e').symm
        subst e1
        have e2 := eq_of_heq (Sigma.mk.inj e').2
        rw [← e2, List.getElem?_eq_getElem hs]
        simp only [Option.some.injEq]
        omega
      · exact absurd hok h0
  choose! code hcode using hcode
  have hnd : (reps.map code).Nodup := by
    rw [List.nodup_map_iff_inj_on]
    · intro a ha b hb e
      by_contra hab
      have hap := hp
      have hjoin : Joined S mon a b ∧ Joined S mon b a := by
        have hxa := List.getElem?_eq_getElem (hv a (hr a ha))
        have hyb := List.getElem?_eq_getElem (hv b (hr b hb))
        obtain ⟨a1, a2⟩ := hcode a ha _ hxa
        obtain ⟨b1, b2⟩ := hcode b hb _ hyb
        have ht : Touch S a b ∧ Touch S b a := by
          rcases hc : code a with _ | ⟨s, k⟩
          · rw [hc] at e
            have e1 := a1 hc
            have e2 := b1 e.symm
            exact ⟨⟨_, _, hxa, hyb, .inl (e1.trans e2.symm)⟩, ⟨_, _, hyb, hxa, .inl (e2.trans e1.symm)⟩⟩
          · rw [hc] at e
            have e1 := a2 s k hc
            have e2 := b2 s k e.symm
            exact ⟨⟨_, _, hxa, hyb, .inr ⟨s, k.val + 1, by omega, e1, e2⟩⟩, ⟨_, _, hyb, hxa, .inr ⟨s, k.val + 1, by omega, e2, e1⟩⟩⟩
        exact ⟨Relation.ReflTransGen.single ⟨hr a ha, hr b hb, ht.1⟩, Relation.ReflTransGen.single ⟨hr b hb, hr a ha, ht.2⟩⟩
      obtain ⟨i, hi, rfl⟩ := List.getElem_of_mem ha
      obtain ⟨j, hj, rfl⟩ := List.getElem_of_mem hb
      rcases Nat.lt_trichotomy i j with hij | hij | hij
      · exact List.pairwise_iff_getElem.1 hp i j hi hj hij hjoin.1
      · subst hij; exact hab rfl
      · exact List.pairwise_iff_getElem.1 hp j i hj hi hij hjoin.2
    · refine List.Pairwise.imp ?_ hp
      intro a b hn e
      subst e
      exact hn Relation.ReflTransGen.refl
  have := List.Nodup.length_le_card hnd
  rw [hcard, List.length_map] at this
  omega

/-- Words of operators. -/
theorem capacity_word {I : Input} (h : copiesOf I.scenario ≤ 254) {w : List Nat} (hw : InRange I w) (h0 : 0 ∉ w) : Capacity I.scenario (w.map (· - 1)) := by
  apply capacity_of_copies _ h
  intro a ha
  obtain ⟨b, hb, rfl⟩ := List.mem_map.1 ha
  have := hw b hb
  have h1 : b ≠ 0 := fun e => h0 (e ▸ hb)
  unfold nOps at this
  omega

end Verif.SdpEnd

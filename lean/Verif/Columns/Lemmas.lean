import Verif.Columns.Model
import Verif.Common.SortLemmas
import Verif.Canon.Props
import Verif.MomentMatrix.Lemmas
namespace Verif.Columns
open Verif.Scenario Verif.Canon Verif.Canon.Spec Verif.Common

theorem mem_product {α : Type} {ls : List (List α)} {w : List α} : w ∈ product ls ↔ List.Forall₂ (fun x l => x ∈ l) w ls := by
  induction ls generalizing w with
  | nil => simp [product]
  | cons l ls ih =>
    simp only [product, List.mem_flatMap, List.mem_map]
    constructor
    · rintro ⟨x, hx, v, hv, rfl⟩
      exact .cons hx (ih.1 hv)
    · intro h
      cases h with
      | cons hx hv => exact ⟨_, hx, _, ih.2 hv, rfl⟩

variable {canon : List Nat → List Nat} {ops : Nat → List Nat}

theorem words_spec (len : Nat) (ws : List (List Nat)) (cols : List (List Nat)) :
    ∃ cols', ws.foldl (wordStep canon len) (cols, cols) = (cols', cols') ∧
      (∀ m, m ∈ cols' ↔ m ∈ cols ∨ ∃ w ∈ ws, canon w = m ∧ m ≠ [0] ∧ m.length = len) ∧ (cols.Nodup → cols'.Nodup) := by
  induction ws generalizing cols with
  | nil => exact ⟨cols, rfl, by simp, id⟩
  | cons w ws ih =>
    rw [List.foldl_cons]
    by_cases h : canon w ≠ [0] ∧ (canon w).length = len ∧ canon w ∉ cols
    · have e : wordStep canon len (cols, cols) w = (cols ++ [canon w], cols ++ [canon w]) := by unfold wordStep; rw [if_pos h]
      rw [e]
      obtain ⟨c', h1, h2, h3⟩ := ih (cols ++ [canon w])
      refine ⟨c', h1, ?_, ?_⟩
      · intro m
        rw [h2, List.mem_append, List.mem_singleton]
        constructor
        · rintro ((h' | h') | ⟨v, hv, h'⟩)
          · exact .inl h'
          · exact .inr ⟨w, by simp, by rw [h'], by rw [h']; exact h.1, by rw [h']; exact h.2.1⟩
          · exact .inr ⟨v, List.mem_cons_of_mem _ hv, h'⟩
        · rintro (h' | ⟨v, hv, h'⟩)
          · exact .inl (.inl h')
          · rcases List.mem_cons.1 hv with rfl | hv
            · exact .inl (.inr h'.1.symm)
            · exact .inr ⟨v, hv, h'⟩
      · intro hn
        apply h3
        rw [List.nodup_append]
        exact ⟨hn, by simp, by rintro a ha b hb rfl; rw [List.mem_singleton] at hb; exact h.2.2 (hb ▸ ha)⟩
    · have e : wordStep canon len (cols, cols) w = (cols, cols) := by unfold wordStep; rw [if_neg h]
      rw [e]
      obtain ⟨c', h1, h2, h3⟩ := ih cols
      refine ⟨c', h1, ?_, h3⟩
      intro m
      rw [h2]
      constructor
      · rintro (h' | ⟨v, hv, h'⟩)
        · exact .inl h'
        · exact .inr ⟨v, List.mem_cons_of_mem _ hv, h'⟩
      · rintro (h' | ⟨v, hv, h'⟩)
        · exact .inl h'
        · rcases List.mem_cons.1 hv with rfl | hv
          · obtain ⟨rfl, h4, h5⟩ := h'
            left
            by_contra hc
            exact h ⟨h4, h5, hc⟩
          · exact .inr ⟨v, hv, h'⟩

/-- Which monomials a block contributes. -/
def FromBlock (canon : List Nat → List Nat) (ops : Nat → List Nat) (block m : List Nat) : Prop :=
  (block = [] ∧ m = []) ∨ (block ≠ [] ∧ ∃ w ∈ product (block.map ops), canon w = m ∧ m ≠ [0] ∧ m.length = block.length)

theorem blocks_spec (specs cols : List (List Nat)) :
    ∃ cols', specs.foldl (blockStep canon ops) (cols, cols) = (cols', cols') ∧
      (∀ m, m ∈ cols' ↔ m ∈ cols ∨ ∃ b ∈ specs, FromBlock canon ops b m) ∧
      (cols.Nodup → specs.count [] + cols.count [] ≤ 1 → cols'.Nodup) ∧ (∃ t, cols' = cols ++ t) := by
  induction specs generalizing cols with
  | nil => exact ⟨cols, rfl, by simp, fun h _ => h, [], by simp⟩
  | cons b specs ih =>
    rw [List.foldl_cons]
    by_cases hb : b = []
    · subst hb
      have e : blockStep canon ops (cols, cols) [] = (cols ++ [[]], cols ++ [[]]) := by unfold blockStep; simp
      rw [e]
      obtain ⟨c', h1, h2, h3, t, ht⟩ := ih (cols ++ [[]])
      refine ⟨c', h1, ?_, ?_, [] :: t, by rw [ht]; simp⟩
      · intro m
        rw [h2, List.mem_append, List.mem_singleton]
        constructor
        · rintro ((h | h) | ⟨b, hb, h⟩)
          · exact .inl h
          · exact .inr ⟨[], by simp, .inl ⟨rfl, h⟩⟩
          · exact .inr ⟨b, List.mem_cons_of_mem _ hb, h⟩
        · rintro (h | ⟨b, hb, h⟩)
          · exact .inl (.inl h)
          · rcases List.mem_cons.1 hb with rfl | hb
            · rcases h with ⟨_, h⟩ | ⟨h, _⟩
              · exact .inl (.inr h)
              · exact absurd rfl h
            · exact .inr ⟨b, hb, h⟩
      · intro hn hc
        rw [List.count_cons_self] at hc
        apply h3
        · rw [List.nodup_append]
          refine ⟨hn, by simp, ?_⟩
          rintro a ha b hb rfl
          rw [List.mem_singleton] at hb
          subst hb
          have := List.count_pos_iff.2 ha
          omega
        · rw [List.count_append, List.count_singleton_self]
          omega
    · obtain ⟨c1, a1, a2, a3⟩ := words_spec (canon := canon) b.length (product (b.map ops)) cols
      have e : blockStep canon ops (cols, cols) b = (c1, c1) := by unfold blockStep; rw [if_neg hb, a1]
      rw [e]
      have hpre : ∀ (ws : List (List Nat)) (st : List (List Nat) × List (List Nat)), ∃ t, (ws.foldl (wordStep canon b.length) st).1 = st.1 ++ t := by
        intro ws
        induction ws with
        | nil => intro st; exact ⟨[], by simp⟩
        | cons w ws ihw =>
          intro st
          obtain ⟨t, ht⟩ := ihw (wordStep canon b.length st w)
          rw [List.foldl_cons, ht]
          unfold wordStep
          split
          · exact ⟨canon w :: t, by simp⟩
          · exact ⟨t, rfl⟩
      have hcount : c1.count [] = cols.count [] ∨ True := .inr trivial
      obtain ⟨c', h1, h2, h3, t, ht⟩ := ih c1
      obtain ⟨t1, ht1⟩ := hpre (product (b.map ops)) (cols, cols)
      rw [a1] at ht1
      refine ⟨c', h1, ?_, ?_, t1 ++ t, by rw [ht]; simp only at ht1; rw [ht1, List.append_assoc]⟩
      · intro m
        rw [h2, a2]
        constructor
        · rintro ((h | h) | ⟨b', hb', h⟩)
          · exact .inl h
          · exact .inr ⟨b, by simp, .inr ⟨hb, h⟩⟩
          · exact .inr ⟨b', List.mem_cons_of_mem _ hb', h⟩
        · rintro (h | ⟨b', hb', h⟩)
          · exact .inl (.inl h)
          · rcases List.mem_cons.1 hb' with rfl | hb'
            · rcases h with ⟨h, _⟩ | ⟨_, h⟩
              · exact absurd h hb
              · exact .inl (.inr h)
            · exact .inr ⟨b', hb', h⟩
      · intro hn hc
        have hb' : ¬ (b == []) = true := by simpa using hb
        rw [List.count_cons_of_ne (by exact hb)] at hc
        refine h3 (a3 hn) ?_
        have hle : c1.count [] ≤ cols.count [] := by
          by_cases hm : [] ∈ c1
          · rcases (a2 []).1 hm with h | ⟨w, _, _, _, h⟩
            · have l1 := List.nodup_iff_count_le_one.1 (a3 hn) []
              have := List.count_pos_iff.2 h
              omega
            · exfalso
              apply hb
              exact List.length_eq_zero_iff.1 (by simpa using h.symm)
          · rw [List.count_eq_zero_of_not_mem hm]; omega
        omega

/-- Sorting by party only exchanges operators of different parties. -/
theorem commEq_sortBy {comm : Nat → Nat → Prop} (party : Nat → Nat) (m : List Nat)
    (h : ∀ a ∈ m, ∀ b ∈ m, party a ≠ party b → comm a b) :
    CommEq comm m (sortBy (fun a b => decide (party a ≤ party b)) m) := by
  have ins : ∀ (x : Nat) (l : List Nat), (∀ b ∈ l, party x ≠ party b → comm x b) → CommEq comm (x :: l) (insertBy (fun a b => decide (party a ≤ party b)) x l) := by
    intro x l
    induction l with
    | nil => intro _; exact .refl _
    | cons a l ih =>
      intro h
      unfold insertBy
      split
      · exact .refl _
      · rename_i hle
        have hne : party x ≠ party a := by
          intro e
          simp [e] at hle
        have h1 : CommEq comm (x :: a :: l) (a :: x :: l) := CommEq.swap [] x a l (h a (by simp) hne)
        exact h1.trans ((ih fun b hb => h b (List.mem_cons_of_mem _ hb)).cons a)
  induction m with
  | nil => exact .refl _
  | cons x m ih =>
    have ih := ih fun a ha b hb => h a (List.mem_cons_of_mem _ ha) b (List.mem_cons_of_mem _ hb)
    refine (ih.cons x).trans (ins x _ ?_)
    intro b hb
    rw [mem_sortBy] at hb
    exact h x (by simp) b (List.mem_cons_of_mem _ hb)

end Verif.Columns

import Verif.Positivity.Lemmas
import Verif.SdpRepr.Lemmas
import Verif.Canon.Props
/-
Words equal to their reverse up to commutations are squares.
-/
namespace Verif.Positivity
open Verif.Canon Verif.Canon.Spec Verif.Common Verif.MomentMatrix Verif.SymMM Verif.SdpRepr

variable {R : Type*} [Ring R] [StarRing R] {ρ : Nat → R} {nc : BMat}

theorem filter_pair_commEq {a b : Nat} (hab : nc a b = true) (hsym : ∀ a b, nc a b = nc b a) (hd : ∀ a, nc a a = false) {u v : List Nat}
    (h : CommEq (fun a b => nc a b = false) u v) :
    u.filter (fun x => x == a || x == b) = v.filter (fun x => x == a || x == b) := by
  induction h with
  | refl w => rfl
  | symm _ ih => exact ih.symm
  | trans _ _ ih1 ih2 => exact ih1.trans ih2
  | swap u x y v hxy =>
    simp only [List.filter_append]
    congr 1
    by_cases hx : x = a ∨ x = b
    · by_cases hy : y = a ∨ y = b
      · have : x = y := by
          rcases hx with rfl | rfl <;> rcases hy with rfl | rfl
          · rfl
          · rw [hab] at hxy; simp at hxy
          · rw [hsym, hab] at hxy; simp at hxy
          · rfl
        rw [this]
      · have e : (y == a || y == b) = false := by simpa using hy
        simp [List.filter_cons, e]
    · have e : (x == a || x == b) = false := by simpa using hx
      simp [List.filter_cons, e]

theorem last_split {a : Nat} : ∀ {t : List Nat}, a ∈ t → ∃ t1 t2, t = t1 ++ a :: t2 ∧ a ∉ t2
  | x :: t, h => by
    by_cases ht : a ∈ t
    · obtain ⟨t1, t2, rfl, h2⟩ := last_split ht
      exact ⟨x :: t1, t2, rfl, h2⟩
    · rcases List.mem_cons.1 h with rfl | h
      · exact ⟨[], t, rfl, ht⟩
      · exact absurd h ht

/-- A word that equals its reverse up to commutations is a square. -/
theorem pos_of_palindrome (hsym : ∀ a b, nc a b = nc b a) (hd : ∀ a, nc a a = false) (hρ : Projectors ρ) (n : Nat) :
    ∀ w : List Nat, w.length = n → (∀ a ∈ w, ∀ b ∈ w, nc a b = false → ρ a * ρ b = ρ b * ρ a) →
      CommEq (fun a b => nc a b = false) w w.reverse → Pos ρ w := by
  induction n using Nat.strongRecOn with
  | ind n ih =>
    intro w hn hcomm h
    rcases w with _ | ⟨a, t⟩
    · exact pos_nil
    by_cases hA : ∀ b ∈ t, nc a b = false
    · -- `a` commutes with everything
      have h1 := erase_commEq h a
      rw [List.erase_cons_head] at h1
      have h2 : CommEq (Comm nc) ((a :: t).reverse.erase a) t.reverse := by
        rw [List.reverse_cons]
        by_cases hat : a ∈ t
        · rw [List.erase_append_left _ (List.mem_reverse.2 hat)]
          obtain ⟨l1, l2, hn1, e1, e2⟩ := List.exists_erase_eq (List.mem_reverse.2 hat)
          rw [e2, e1]
          have hc : ∀ b ∈ t, Comm nc a b := hA
          have s1 : CommEq (Comm nc) ((l1 ++ l2) ++ [a]) (a :: (l1 ++ l2)) := by
            have := CommEq.move_front (comm := Comm nc) (l1 ++ l2) a [] (by
              intro b hb
              apply hc
              rw [← List.mem_reverse, e1]
              simp only [List.mem_append, List.mem_cons] at hb ⊢
              rcases hb with hb | hb <;> simp [hb])
            simpa using this
          have s2 : CommEq (Comm nc) (l1 ++ a :: l2) (a :: (l1 ++ l2)) :=
            CommEq.move_front l1 a l2 (by
              intro b hb
              apply hc
              rw [← List.mem_reverse, e1]
              simp [hb])
          exact s1.trans s2.symm
        · rw [List.erase_append_right _ (fun hm => hat (List.mem_reverse.1 hm))]
          simp only [List.erase_cons_head, List.append_nil]
          exact .refl _
      have ht := ih t.length (by simp at hn; omega) t rfl
        (fun x hx y hy => hcomm x (by simp [hx]) y (by simp [hy])) (h1.trans h2)
      have := pos_append hρ (l := [a]) (m := t) (by
        intro x hx y hy
        simp only [List.mem_singleton] at hx
        subst hx
        exact hcomm x (by simp) y (by simp [hy]) (hA y hy)) (pos_singleton hρ a) ht
      simpa using this
    · push Not at hA
      obtain ⟨b, hb, hab⟩ := hA
      have hab : nc a b = true := by simpa using hab
      -- the letters `a`, `c` form a palindrome for every `c` not commuting with `a`
      have pal : ∀ c, nc a c = true → ((a :: t).filter (fun x => x == a || x == c)) =
          ((a :: t).filter (fun x => x == a || x == c)).reverse := by
        intro c hc
        rw [← List.filter_reverse]
        exact filter_pair_commEq hc hsym hd h
      have hat : a ∈ t := by
        have h1 := pal b hab
        by_contra hat
        have hba : b ≠ a := by rintro rfl; rw [hd] at hab; simp at hab
        have e : ∃ s, (a :: t).filter (fun x => x == a || x == b) = a :: s ∧ a ∉ s ∧ b ∈ s := by
          refine ⟨t.filter (fun x => x == a || x == b), by simp, fun hm => hat (List.mem_filter.1 hm).1, ?_⟩
          simp [hb]
        obtain ⟨s, e, h2, h3⟩ := e
        rw [e, List.reverse_cons] at h1
        rcases s.eq_nil_or_concat' with rfl | ⟨s', z, rfl⟩
        · simp at h3
        · simp only [List.reverse_append, List.reverse_cons, List.reverse_nil, List.nil_append, List.singleton_append,
            List.cons_append] at h1
          have := (List.cons.injEq _ _ _ _ ▸ h1).1
          apply h2
          simp [this]
      obtain ⟨t1, t2, rfl, ht2⟩ := last_split hat
      have hc2 : ∀ c ∈ t2, nc a c = false := by
        intro c hc
        by_contra hne
        have hac : nc a c = true := by simpa using hne
        have h1 := pal c hac
        have hf2 : ∃ z s, t2.filter (fun x => x == a || x == c) = s ++ [z] ∧ z ≠ a := by
          rcases (t2.filter (fun x => x == a || x == c)).eq_nil_or_concat' with e | ⟨s, z, e⟩
          · have : c ∈ t2.filter (fun x => x == a || x == c) := by simp [hc]
            rw [e] at this; simp at this
          · refine ⟨z, s, e, ?_⟩
            rintro rfl
            have : z ∈ t2.filter (fun x => x == z || x == c) := by rw [e]; simp
            exact ht2 (List.mem_filter.1 this).1
        obtain ⟨z, s, e, hz⟩ := hf2
        have e1 : (a :: (t1 ++ a :: t2)).filter (fun x => x == a || x == c) =
            a :: ((t1 ++ [a]).filter (fun x => x == a || x == c) ++ s) ++ [z] := by
          simp [List.filter_append, List.filter_cons, e]
        rw [e1, List.reverse_append] at h1
        simp at h1
        exact hz h1.1.symm
      -- move the last `a` to the end
      have hend : CommEq (fun a b => nc a b = false) (a :: (t1 ++ a :: t2)) (a :: ((t1 ++ t2) ++ [a])) := by
        apply CommEq.cons
        rw [List.append_assoc]
        apply CommEq.append_left
        have := CommEq.move_front (comm := fun a b => nc a b = false) t2 a [] (by intro b hb; exact hc2 b hb)
        rw [List.append_nil] at this
        exact this.symm
      have hm : CommEq (fun a b => nc a b = false) (t1 ++ t2) (t1 ++ t2).reverse := by
        have h1 := hend.symm.trans (h.trans (commEq_reverse hsym hend))
        have e1 : (a :: ((t1 ++ t2) ++ [a])).reverse = a :: ((t1 ++ t2).reverse ++ [a]) := by simp
        rw [e1] at h1
        have h2 := erase_commEq h1 a
        rw [List.erase_cons_head, List.erase_cons_head] at h2
        have h3 := commEq_reverse hsym h2
        simp only [List.reverse_append (as := t1 ++ t2), List.reverse_append (as := (t1 ++ t2).reverse), List.reverse_cons,
          List.reverse_nil, List.nil_append, List.singleton_append, List.reverse_reverse] at h3
        have h4 := erase_commEq h3 a
        rw [List.erase_cons_head, List.erase_cons_head] at h4
        exact h4.symm
      have hsub : ∀ x ∈ t1 ++ t2, x ∈ a :: (t1 ++ a :: t2) := by
        intro x hx
        simp only [List.mem_append, List.mem_cons] at hx ⊢
        rcases hx with hx | hx <;> simp [hx]
      have hp := ih (t1 ++ t2).length (by simp at hn ⊢; omega) (t1 ++ t2) rfl
        (fun x hx y hy => hcomm x (hsub x hx) y (hsub y hy)) hm
      refine pos_congr (pos_sandwich hρ a hp) ?_ ?_
      · intro x hx
        simp only [List.mem_cons, List.mem_append, List.not_mem_nil, or_false] at hx ⊢
        rcases hx with hx | (hx | hx) | hx <;> simp [hx]
      · exact prod_commEq ρ hend hcomm

/-! ### rigid words -/

theorem rigid {w v : List Nat} (hsym : ∀ a b, nc a b = nc b a) (h : CommEq (fun a b => nc a b = false) w v)
    (hw : ∀ u a b v, w = u ++ a :: b :: v → nc a b = true) : v = w := by
  have key : ∀ {w v : List Nat}, CommEq (fun a b => nc a b = false) w v →
      ((∀ u a b x, w = u ++ a :: b :: x → nc a b = true) → v = w) ∧ ((∀ u a b x, v = u ++ a :: b :: x → nc a b = true) → w = v) := by
    intro w v h
    induction h with
    | refl w => simp
    | symm _ ih => exact ⟨ih.2, ih.1⟩
    | trans _ _ ih1 ih2 =>
      constructor
      · intro hw
        have e := ih1.1 hw
        subst e
        exact ih2.1 hw
      · intro hv
        have e := ih2.2 hv
        subst e
        exact ih1.2 hv
    | swap u a b v hab =>
      constructor
      · intro hw
        have := hw u a b v rfl
        simp [hab] at this
      · intro hw
        have := hw u b a v rfl
        rw [hsym] at this
        simp [hab] at this
  exact (key h).1 hw

end Verif.Positivity

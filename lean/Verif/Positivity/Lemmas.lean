import Verif.Positivity.Model
import Verif.Positivity.Spec
import Verif.SdpRepr.Lemmas
import Verif.Components.Fact
import Verif.Components.Spec
/-
Products of commuting squares.
-/
namespace Verif.Positivity
open Verif.Scenario Verif.Common Verif.Components

variable {α R : Type*} [Ring R] [StarRing R] {ρ : α → R}

/-- The product over the word is the square of a product over letters of the word. -/
def Pos (ρ : α → R) (l : List α) : Prop :=
  ∃ vs : List α, (∀ x ∈ vs, x ∈ l) ∧ (l.map ρ).prod = star ((vs.map ρ).prod) * (vs.map ρ).prod

theorem star_prod (hρ : Projectors ρ) (l : List α) : star ((l.map ρ).prod) = (l.reverse.map ρ).prod := by
  induction l with
  | nil => simp
  | cons a l ih => simp [star_mul, ih, (hρ a).2]

theorem prod_comm_of {l : List α} {x : R} (h : ∀ a ∈ l, ρ a * x = x * ρ a) : (l.map ρ).prod * x = x * (l.map ρ).prod := by
  induction l with
  | nil => simp
  | cons a l ih =>
    have h1 := ih (fun b hb => h b (by simp [hb]))
    have h2 := h a (by simp)
    simp only [List.map_cons, List.prod_cons]
    rw [mul_assoc, h1, ← mul_assoc, h2, mul_assoc]

theorem prod_comm_prod {l m : List α} (h : ∀ a ∈ l, ∀ b ∈ m, ρ a * ρ b = ρ b * ρ a) :
    (l.map ρ).prod * (m.map ρ).prod = (m.map ρ).prod * (l.map ρ).prod :=
  prod_comm_of fun a ha => (prod_comm_of fun b hb => (h a ha b hb).symm).symm

theorem pos_nil : Pos ρ ([] : List α) := ⟨[], by simp, by simp⟩

theorem pos_singleton (hρ : Projectors ρ) (a : α) : Pos ρ [a] := ⟨[a], by simp, by simp [(hρ a).2, (hρ a).1]⟩

theorem pos_sandwich (hρ : Projectors ρ) (a : α) {m : List α} (h : Pos ρ m) : Pos ρ (a :: (m ++ [a])) := by
  obtain ⟨vs, h1, h2⟩ := h
  refine ⟨vs ++ [a], ?_, ?_⟩
  · intro x hx
    rw [List.mem_append] at hx
    rcases hx with hx | hx
    · simp [h1 x hx]
    · simp at hx; simp [hx]
  · simp only [List.map_cons, List.map_append, List.map_nil, List.prod_cons, List.prod_append, List.prod_nil, mul_one, star_mul, h2,
      (hρ a).2, mul_assoc]

theorem pos_append (hρ : Projectors ρ) {l m : List α} (hc : ∀ a ∈ l, ∀ b ∈ m, ρ a * ρ b = ρ b * ρ a) (hl : Pos ρ l) (hm : Pos ρ m) :
    Pos ρ (l ++ m) := by
  obtain ⟨v1, h1, e1⟩ := hl
  obtain ⟨v2, h2, e2⟩ := hm
  refine ⟨v1 ++ v2, ?_, ?_⟩
  · intro x hx
    rw [List.mem_append] at hx ⊢
    exact hx.imp (h1 x) (h2 x)
  · have hx : (l.map ρ).prod * star ((v2.map ρ).prod) = star ((v2.map ρ).prod) * (l.map ρ).prod := by
      rw [star_prod hρ]
      exact prod_comm_prod fun a ha b hb => hc a ha b (h2 b (List.mem_reverse.1 hb))
    simp only [List.map_append, List.prod_append, star_mul]
    rw [e2, ← mul_assoc, hx, e1]
    simp only [mul_assoc]

theorem pos_congr {l m : List α} (h : Pos ρ l) (hm : ∀ x ∈ l, x ∈ m) (e : (m.map ρ).prod = (l.map ρ).prod) : Pos ρ m := by
  obtain ⟨vs, h1, h2⟩ := h
  exact ⟨vs, fun x hx => hm x (h1 x hx), by rw [e, h2]⟩

theorem pos_flatten (hρ : Projectors ρ) {bs : List (List α)} (hc : bs.Pairwise fun l m => ∀ a ∈ l, ∀ b ∈ m, ρ a * ρ b = ρ b * ρ a)
    (h : ∀ l ∈ bs, Pos ρ l) : Pos ρ bs.flatten := by
  induction bs with
  | nil => exact pos_nil
  | cons l bs ih =>
    rw [List.pairwise_cons] at hc
    rw [List.flatten_cons]
    apply pos_append hρ _ (h l (by simp)) (ih hc.2 (fun m hm => h m (by simp [hm])))
    intro a ha b hb
    rw [List.mem_flatten] at hb
    obtain ⟨m, hm, hb⟩ := hb
    exact hc.1 m hm a ha b hb

/-- Sorting the letters of a word by the value of `f`, keeping the order inside each class. -/
theorem prod_classes (f : α → Nat) (ks : List Nat) (hks : ks.Nodup) (l : List α) (hl : ∀ a ∈ l, f a ∈ ks)
    (hc : ∀ a ∈ l, ∀ b ∈ l, f a ≠ f b → ρ a * ρ b = ρ b * ρ a) :
    (l.map ρ).prod = (((ks.map fun i => l.filter fun a => f a == i).flatten).map ρ).prod := by
  induction l with
  | nil =>
    have : (ks.map fun i => ([] : List α).filter fun a => f a == i).flatten = [] := by simp
    rw [this]
  | cons a l ih =>
    have ih := ih (fun b hb => hl b (by simp [hb])) (fun b hb c hc' => hc b (by simp [hb]) c (by simp [hc']))
    simp only [List.map_cons, List.prod_cons]
    rw [ih]
    have ha := hl a (by simp)
    obtain ⟨k1, k2, rfl⟩ := List.append_of_mem ha
    rw [List.nodup_append] at hks
    obtain ⟨_, hk2, hdis⟩ := hks
    rw [List.nodup_cons] at hk2
    have hsplit : ∀ ks : List Nat, f a ∉ ks → (ks.map fun i => (a :: l).filter fun b => f b == i) =
        ks.map fun i => l.filter fun b => f b == i := by
      intro ks hn
      apply List.map_congr_left
      intro i hi
      have : f a ≠ i := fun e => hn (e ▸ hi)
      simp [this]
    have hn1 : f a ∉ k1 := fun h => (hdis (f a) h (f a) (by simp)) rfl
    simp only [List.map_append, List.map_cons, List.flatten_append, List.flatten_cons, List.map_append, List.prod_append,
      hsplit k1 hn1, hsplit k2 hk2.1]
    have hcomm : ((((k1.map fun i => l.filter fun b => f b == i).flatten).map ρ).prod) * ρ a =
        ρ a * ((((k1.map fun i => l.filter fun b => f b == i).flatten).map ρ).prod) := by
      apply prod_comm_of
      intro b hb
      simp only [List.mem_flatten, List.mem_map] at hb
      obtain ⟨m, ⟨i, hi, rfl⟩, hb⟩ := hb
      simp only [List.mem_filter, beq_iff_eq] at hb
      apply hc b (by simp [hb.1]) a (by simp)
      rw [hb.2]
      intro e
      exact hn1 (e ▸ hi)
    have hfa : (a :: l).filter (fun b => f b == f a) = a :: l.filter (fun b => f b == f a) := by simp
    rw [hfa]
    simp only [List.map_cons, List.prod_cons]
    rw [← mul_assoc, ← hcomm]
    simp only [mul_assoc]

theorem pos_classes (hρ : Projectors ρ) (f : α → Nat) (ks : List Nat) (hks : ks.Nodup) (l : List α) (hl : ∀ a ∈ l, f a ∈ ks)
    (hc : ∀ a ∈ l, ∀ b ∈ l, f a ≠ f b → ρ a * ρ b = ρ b * ρ a)
    (h : ∀ i ∈ ks, Pos ρ (l.filter fun a => f a == i)) : Pos ρ l := by
  refine pos_congr (l := (ks.map fun i => l.filter fun a => f a == i).flatten) ?_ ?_ (prod_classes f ks hks l hl hc)
  · apply pos_flatten hρ
    · rw [List.pairwise_map]
      refine List.Pairwise.imp ?_ hks
      intro i j hij a ha b hb
      simp only [List.mem_filter, beq_iff_eq] at ha hb
      exact hc a ha.1 b hb.1 (by rw [ha.2, hb.2]; exact hij)
    · intro m hm
      rw [List.mem_map] at hm
      obtain ⟨i, hi, rfl⟩ := hm
      exact h i hi
  · intro x hx
    simp only [List.mem_flatten, List.mem_map] at hx
    obtain ⟨m, ⟨i, hi, rfl⟩, hx⟩ := hx
    exact (List.mem_filter.1 hx).1

/-! ### sandwiches -/

theorem pos_strip {ρ : Op → R} (hρ : Projectors ρ) (n : Nat) (l : List Op) (h : Pos ρ (strip n l)) : Pos ρ l := by
  induction n generalizing l with
  | zero => exact h
  | succ n ih =>
    unfold strip at h
    split at h
    · exact h
    · split at h
      · rename_i h0 h1
        have := ih _ h
        match l, h0, h1 with
        | [a], _, _ => exact pos_singleton hρ a
        | a :: b :: t, _, h1 =>
          have hne : (b :: t) ≠ [] := by simp
          have e1 : (a :: b :: t).getLast? = some ((b :: t).getLast hne) := by
            rw [List.getLast?_eq_some_getLast (by simp), List.getLast_cons hne]
          rw [e1] at h1
          simp only [List.head?_cons, beq_iff_eq, Option.some.injEq] at h1
          have e2 : b :: t = (b :: t).dropLast ++ [a] := by
            conv_lhs => rw [← List.dropLast_append_getLast hne, ← h1]
          rw [e2]
          exact pos_sandwich hρ a this
      · exact h

/-! ### components -/

theorem classify_adj {n : Nat} {adj : Nat → Nat → Bool} (hs : ∀ a b, adj a b = adj b a) {i j : Nat} (hi : i < n) (hj : j < n)
    (h : adj i j = true) : (classify n adj).getD i 0 = (classify n adj).getD j 0 := by
  unfold classify
  split
  · simp [List.getD_eq_getElem?_getD, hi, hj]
  · have inv : ∀ (l : List Nat) (st : (Nat → Nat) × Nat), (∀ k ∈ l, k < n) → st.1 i = st.1 j →
        (l.foldl (labelStep n adj) st).1 i = (l.foldl (labelStep n adj) st).1 j := by
      intro l
      induction l with
      | nil => exact fun st _ h => h
      | cons k l ih =>
        intro st hk he
        rw [List.foldl_cons]
        apply ih _ (fun k' hk' => hk k' (by simp [hk']))
        have hkn := hk k (by simp)
        unfold labelStep
        split
        · simp only
          have hci : component n adj k i = component n adj k j := by
            rw [Bool.eq_iff_iff, component_iff hkn hi, component_iff hkn hj]
            constructor
            · intro hc; exact hc.tail ⟨hi, hj, h⟩
            · intro hc; exact hc.tail ⟨hj, hi, by rw [hs]; exact h⟩
          rw [hci, he]
        · exact he
    have := inv (List.range n) (fun _ => 0, 1) (fun k hk => List.mem_range.1 hk) rfl
    simp [List.getD_eq_getElem?_getD, hi, hj, this]

theorem components_length (pm : List Op) : (monomialComponents pm).length = pm.length := by
  unfold monomialComponents
  split
  · simp
  · exact classify_length

theorem label_ne {pm : List Op} {i j : Nat} (hi : i < pm.length) (hj : j < pm.length)
    (h : (monomialComponents pm).getD i 0 ≠ (monomialComponents pm).getD j 0) : ¬ ShareCopy pm[i] pm[j] := by
  intro hsh
  apply h
  unfold monomialComponents
  split
  · rename_i hl
    have : i = j := by omega
    rw [this]
  · apply classify_adj (overlapMatrix_symm _) hi hj
    rw [overlapMatrix_iff]
    right
    rw [existsSharedSource_iff]
    have e : ∀ k (hk : k < pm.length), (pm.map (·.copies)).getD k [] = pm[k].copies := by
      intro k hk
      rw [List.getD_eq_getElem _ _ (by simpa using hk)]
      simp
    rw [e i hi, e j hj]
    exact hsh

end Verif.Positivity

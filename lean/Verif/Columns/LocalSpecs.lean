import Verif.Columns.Core
import Mathlib.Data.List.Nodup
import Mathlib.Data.List.Sort
import Mathlib.Algebra.BigOperators.Group.List.Basic
import Mathlib.Algebra.Order.BigOperators.Group.List
namespace Verif.Columns
open Verif.Common

theorem count_flatMap_replicate (l : List Nat) (hl : l.Nodup) (f : Nat → Nat) (p : Nat) :
    (l.flatMap fun q => List.replicate (f q) q).count p = if p ∈ l then f p else 0 := by
  induction l with
  | nil => simp
  | cons a l ih =>
    rw [List.nodup_cons] at hl
    rw [List.flatMap_cons, List.count_append, ih hl.2, List.count_replicate]
    by_cases h : a = p
    · subst h
      simp [hl.1]
    · have h' : ¬ p = a := fun e => h e.symm
      simp [h, h']

theorem count_blockOf (n : Nat) (f : List Nat) (p : Nat) : (blockOf n f).count p = if p < n then f.getD p 0 else 0 := by
  unfold blockOf
  rw [count_flatMap_replicate _ List.nodup_range]
  simp

theorem blockOf_sorted (n : Nat) (f : List Nat) : (blockOf n f).Pairwise (· ≤ ·) := by
  unfold blockOf
  rw [List.pairwise_flatMap]
  refine ⟨?_, ?_⟩
  · intro p _
    rw [List.pairwise_replicate]
    exact .inr (Nat.le_refl p)
  · refine (List.pairwise_lt_range (n := n)).imp ?_
    intro a b hab x hx y hy
    rw [List.mem_replicate] at hx hy
    omega

theorem blockOf_lt {n : Nat} {f : List Nat} {p : Nat} (h : p ∈ blockOf n f) : p < n := by
  unfold blockOf at h
  obtain ⟨q, hq, h⟩ := List.mem_flatMap.1 h
  rw [List.mem_replicate] at h
  rw [List.mem_range] at hq
  omega

theorem length_blockOf {n : Nat} {f : List Nat} (h : f.length = n) : (blockOf n f).length = f.sum := by
  have : f = (List.range n).map fun p => f.getD p 0 := by
    apply List.ext_getElem
    · simp [h]
    · intro i h1 h2
      simp [List.getD_eq_getElem?_getD, h1]
  conv_rhs => rw [this]
  unfold blockOf
  simp [List.length_flatMap]

theorem eq_blockOf {n : Nat} {b : List Nat} (hs : b.Pairwise (· ≤ ·)) (hb : ∀ p ∈ b, p < n) :
    blockOf n ((List.range n).map fun p => b.count p) = b := by
  have hp : (blockOf n ((List.range n).map fun p => b.count p)).Perm b := by
    rw [List.perm_iff_count]
    intro p
    rw [count_blockOf]
    split
    · rename_i h
      simp [List.getD_eq_getElem?_getD, h]
    · rename_i h
      rw [List.count_eq_zero_of_not_mem]
      intro hm
      exact h (hb p hm)
  exact hp.eq_of_pairwise (fun a b _ _ h1 h2 => Nat.le_antisymm h1 h2) (blockOf_sorted _ _) hs

theorem mem_localProduct {lengths f : List Nat} : f ∈ product (lengths.map fun l => List.range (l + 1)) ↔
    f.length = lengths.length ∧ ∀ p, p < lengths.length → f.getD p 0 ≤ lengths.getD p 0 := by
  rw [mem_product]
  induction lengths generalizing f with
  | nil =>
    constructor
    · intro h; cases h; simp
    · rintro ⟨h, _⟩
      rw [List.length_nil, List.length_eq_zero_iff] at h
      subst h; exact .nil
  | cons l ls ih =>
    constructor
    · intro h
      cases h with
      | cons h1 h2 =>
        obtain ⟨h3, h4⟩ := ih.1 h2
        refine ⟨by simp [h3], ?_⟩
        intro p hp
        cases p with
        | zero => rw [List.mem_range] at h1; simp; omega
        | succ p => simpa using h4 p (by simpa using hp)
    · rintro ⟨h1, h2⟩
      match f, h1 with
      | x :: f, h1 =>
        refine .cons ?_ (ih.2 ⟨by simpa using h1, ?_⟩)
        · have := h2 0 (by simp)
          simp at this
          rw [List.mem_range]; omega
        · intro p hp
          simpa using h2 (p + 1) (by simpa using hp)

theorem mem_localSpecs {n maxLen : Nat} {lengths b : List Nat} (hn : lengths.length = n) :
    b ∈ localSpecs n lengths maxLen ↔ b.Pairwise (· ≤ ·) ∧ (∀ p ∈ b, p < n) ∧ (∀ p, p < n → b.count p ≤ lengths.getD p 0) ∧
      b.length ≤ cutoff lengths.sum maxLen := by
  unfold localSpecs
  simp only [List.mem_map, mem_sortBy, List.mem_filter, mem_localProduct, decide_eq_true_eq]
  constructor
  · rintro ⟨f, ⟨⟨h1, h2⟩, h3⟩, rfl⟩
    refine ⟨blockOf_sorted _ _, fun p hp => blockOf_lt hp, ?_, ?_⟩
    · intro p hp
      rw [count_blockOf, if_pos hp]
      exact h2 p (by omega)
    · rw [length_blockOf (by omega)]; exact h3
  · rintro ⟨h1, h2, h3, h4⟩
    refine ⟨(List.range n).map fun p => b.count p, ⟨⟨by simp [hn], ?_⟩, ?_⟩, eq_blockOf h1 h2⟩
    · intro p hp
      rw [hn] at hp
      have : ((List.range n).map fun p => b.count p).getD p 0 = b.count p := by simp [List.getD_eq_getElem?_getD, hp]
      rw [this]
      exact h3 p hp
    · rw [← length_blockOf (n := n) (by simp), eq_blockOf h1 h2]
      exact h4

theorem nodup_product {ls : List (List Nat)} (h : ∀ l ∈ ls, l.Nodup) : (product ls).Nodup := by
  induction ls with
  | nil => simp [product]
  | cons l ls ih =>
    have ih := ih fun l hl => h l (List.mem_cons_of_mem _ hl)
    unfold product
    rw [List.nodup_flatMap]
    refine ⟨?_, ?_⟩
    · intro x _
      exact ih.map (fun a b e => by simpa using e)
    · refine (h l (by simp)).imp ?_
      intro a b hab w hw hw'
      obtain ⟨u, _, rfl⟩ := List.mem_map.1 hw
      obtain ⟨v, _, e⟩ := List.mem_map.1 hw'
      simp only [List.cons.injEq] at e
      exact hab e.1.symm

theorem blockOf_eq_nil {n : Nat} {f : List Nat} (hf : f.length = n) (h : blockOf n f = []) : f = List.replicate n 0 := by
  have hs := length_blockOf hf
  rw [h, List.length_nil] at hs
  rw [List.eq_replicate_iff]
  refine ⟨hf, ?_⟩
  intro x hx
  have := List.single_le_sum (l := f) (fun _ _ => Nat.zero_le _) x hx
  omega

theorem count_localSpecs {n maxLen : Nat} {lengths : List Nat} (hn : lengths.length = n) : (localSpecs n lengths maxLen).count [] ≤ 1 := by
  unfold localSpecs
  rw [List.count_eq_countP, List.countP_map]
  set l := sortBy freqLe ((product (lengths.map fun l => List.range (l + 1))).filter fun f => decide (f.sum ≤ cutoff lengths.sum maxLen)) with hl
  have hnd : l.Nodup := by
    rw [hl, (sortBy_perm _ _).nodup_iff]
    apply List.Nodup.filter
    apply nodup_product
    intro x hx
    obtain ⟨y, _, rfl⟩ := List.mem_map.1 hx
    exact List.nodup_range
  have hlen : ∀ f ∈ l, f.length = n := by
    intro f hf
    rw [hl, mem_sortBy, List.mem_filter, mem_localProduct] at hf
    omega
  calc List.countP ((fun x => x == []) ∘ blockOf n) l ≤ List.countP (fun x => x == List.replicate n 0) l := by
        apply List.countP_mono_left
        intro f hf h
        simp only [Function.comp, beq_iff_eq] at h
        simpa using blockOf_eq_nil (hlen f hf) h
    _ ≤ 1 := by
        rw [← List.count_eq_countP]
        exact List.nodup_iff_count_le_one.1 hnd _

theorem count_npaSpecs (n level maxLen : Nat) : (npaSpecs n level maxLen).count [] = 1 := by
  unfold npaSpecs
  rw [List.count_cons_self]
  have : List.count [] ((List.range (cutoff level maxLen)).flatMap fun k => (product (List.replicate (k + 1) (List.range n))).filter increasing) = 0 := by
    apply List.count_eq_zero_of_not_mem
    intro h
    obtain ⟨k, _, h⟩ := List.mem_flatMap.1 h
    have h := (List.mem_filter.1 h).1
    rw [mem_product] at h
    cases h
  rw [this]

/-- The first block of a local level is the empty one. -/
theorem head_localSpecs {n maxLen : Nat} {lengths : List Nat} (hn : lengths.length = n) :
    ∃ t, localSpecs n lengths maxLen = [] :: t := by
  unfold localSpecs
  have htot : ∀ a b : List Nat, freqLe a b = true ∨ freqLe b a = true := by
    intro a b
    unfold freqLe
    rcases Nat.lt_trichotomy a.sum b.sum with h | h | h
    · left; simp [h]
    · have hd : ∀ a b : List Nat, descLe a b = true ∨ descLe b a = true := by
        intro a
        induction a with
        | nil => intro b; left; unfold descLe; rfl
        | cons x a ih =>
          intro b
          cases b with
          | nil => right; unfold descLe; rfl
          | cons y b =>
            simp only [descLe]
            rcases Nat.lt_trichotomy x y with h | h | h
            · right; simp [h]
            · subst h
              rcases ih b with h | h <;> simp [h]
            · left; simp [h]
      rcases hd a b with h' | h' <;> simp [h, h']
    · right; simp [h]
  have htrans : ∀ a b c : List Nat, freqLe a b = true → freqLe b c = true → freqLe a c = true := by
    have hd : ∀ a b c : List Nat, descLe a b = true → descLe b c = true → descLe a c = true := by
      intro a
      induction a with
      | nil => intro b c _ _; unfold descLe; rfl
      | cons x a ih =>
        intro b c h1 h2
        match b, c with
        | [], _ => simp [descLe] at h1
        | y :: b, [] => simp [descLe] at h2
        | y :: b, z :: c =>
          simp only [descLe, Bool.or_eq_true, decide_eq_true_eq, Bool.and_eq_true, beq_iff_eq] at h1 h2 ⊢
          rcases h1 with h1 | ⟨rfl, h1⟩
          · rcases h2 with h2 | ⟨rfl, h2⟩
            · left; omega
            · exact .inl h1
          · rcases h2 with h2 | ⟨rfl, h2⟩
            · exact .inl h2
            · exact .inr ⟨rfl, ih b c h1 h2⟩
    intro a b c h1 h2
    unfold freqLe at *
    simp only [Bool.or_eq_true, decide_eq_true_eq, Bool.and_eq_true, beq_iff_eq] at h1 h2 ⊢
    rcases h1 with h1 | ⟨e1, h1⟩
    · rcases h2 with h2 | ⟨e2, h2⟩
      · left; omega
      · left; omega
    · rcases h2 with h2 | ⟨e2, h2⟩
      · left; omega
      · exact .inr ⟨by omega, hd a b c h1 h2⟩
  set l := (product (lengths.map fun l => List.range (l + 1))).filter fun f => decide (f.sum ≤ cutoff lengths.sum maxLen) with hl
  have hz : List.replicate n 0 ∈ l := by
    rw [hl, List.mem_filter, mem_localProduct]
    refine ⟨⟨by simp [hn], ?_⟩, by simp⟩
    intro p hp
    simp [List.getD_eq_getElem?_getD, List.getElem?_replicate]
    split <;> simp
  have hsorted := sortBy_sorted freqLe htot htrans l
  have hz' : List.replicate n 0 ∈ sortBy freqLe l := mem_sortBy.2 hz
  have hlen : ∀ f ∈ sortBy freqLe l, f.length = n := by
    intro f hf
    rw [mem_sortBy, hl, List.mem_filter, mem_localProduct] at hf
    omega
  rcases hsl : sortBy freqLe l with _ | ⟨h, t⟩
  · rw [hsl] at hz'; simp at hz'
  · rw [hsl] at hz' hsorted hlen
    refine ⟨t.map (blockOf n), ?_⟩
    rw [List.map_cons]
    congr 1
    rw [← List.length_eq_zero_iff, length_blockOf (hlen h (by simp))]
    rcases List.mem_cons.1 hz' with e | e
    · rw [← e]; simp
    · have := List.rel_of_pairwise_cons hsorted e
      unfold freqLe at this
      simp at this
      exact this.1

end Verif.Columns

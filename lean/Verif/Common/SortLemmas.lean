import Mathlib.Data.List.Nodup
import Mathlib.Data.List.Perm.Basic
import Verif.Common.Sort
namespace Verif.Common

theorem mem_dedupB {α} [BEq α] [LawfulBEq α] {l : List α} {x : α} : x ∈ dedupB l ↔ x ∈ l := by
  induction l with
  | nil => simp [dedupB]
  | cons a l ih =>
    simp only [dedupB, List.mem_cons, List.mem_filter, ih]
    by_cases h : x = a
    · simp [h]
    · simp [h]

theorem nodup_dedupB {α} [BEq α] [LawfulBEq α] (l : List α) : (dedupB l).Nodup := by
  induction l with
  | nil => simp [dedupB]
  | cons a l ih =>
    simp only [dedupB, List.nodup_cons, List.mem_filter]
    exact ⟨by simp, ih.filter _⟩

theorem insertBy_perm {α} (le : α → α → Bool) (x : α) (l : List α) : (insertBy le x l).Perm (x :: l) := by
  induction l with
  | nil => exact .refl _
  | cons a l ih =>
    unfold insertBy
    split
    · exact .refl _
    · exact (ih.cons a).trans (List.Perm.swap x a l)

theorem sortBy_perm {α} (le : α → α → Bool) (l : List α) : (sortBy le l).Perm l := by
  induction l with
  | nil => exact .refl _
  | cons a l ih => exact (insertBy_perm le a _).trans (ih.cons a)

theorem mem_sortBy {α} {le : α → α → Bool} {l : List α} {x : α} : x ∈ sortBy le l ↔ x ∈ l :=
  (sortBy_perm le l).mem_iff

theorem insertBy_sorted {α} (le : α → α → Bool) (htot : ∀ a b, le a b = true ∨ le b a = true)
    (htr : ∀ a b c, le a b = true → le b c = true → le a c = true) (x : α) (l : List α)
    (h : l.Pairwise fun a b => le a b = true) : (insertBy le x l).Pairwise fun a b => le a b = true := by
  induction l with
  | nil => simp [insertBy]
  | cons a l ih =>
    rw [List.pairwise_cons] at h
    unfold insertBy
    split
    · rename_i hx
      rw [List.pairwise_cons]
      refine ⟨?_, List.pairwise_cons.2 h⟩
      intro b hb
      simp only [List.mem_cons] at hb
      rcases hb with rfl | hb
      · exact hx
      · exact htr _ _ _ hx (h.1 b hb)
    · rename_i hx
      rw [List.pairwise_cons]
      refine ⟨?_, ih h.2⟩
      intro b hb
      have := (insertBy_perm le x l).mem_iff.1 hb
      simp only [List.mem_cons] at this
      rcases this with rfl | hb
      · exact (htot a b).resolve_right hx
      · exact h.1 b hb

theorem sortBy_sorted {α} (le : α → α → Bool) (htot : ∀ a b, le a b = true ∨ le b a = true)
    (htr : ∀ a b c, le a b = true → le b c = true → le a c = true) (l : List α) :
    (sortBy le l).Pairwise fun a b => le a b = true := by
  induction l with
  | nil => exact .nil
  | cons a l ih => exact insertBy_sorted le htot htr a _ ih

/-- Sorting a list that is already sorted by an antisymmetric order changes nothing; more generally permuted lists have the same sorted
version. -/
theorem sortBy_eq_of_perm {α} (le : α → α → Bool) (htot : ∀ a b, le a b = true ∨ le b a = true)
    (htr : ∀ a b c, le a b = true → le b c = true → le a c = true)
    (hanti : ∀ a b, le a b = true → le b a = true → a = b) {l l' : List α} (h : l.Perm l') :
    sortBy le l = sortBy le l' := by
  have hp : (sortBy le l).Perm (sortBy le l') := (sortBy_perm le l).trans (h.trans (sortBy_perm le l').symm)
  exact hp.eq_of_pairwise (fun a b _ _ h1 h2 => hanti a b h1 h2) (sortBy_sorted le htot htr l) (sortBy_sorted le htot htr l')

end Verif.Common

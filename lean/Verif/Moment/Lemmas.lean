import Verif.Moment.Model
import Verif.Common.SortLemmas
import Verif.SymMM.Lemmas
import Verif.SymMM.ColumnsLemmas
import Mathlib.Algebra.BigOperators.Group.List.Basic
import Mathlib.Algebra.BigOperators.Group.Finset.Basic
import Mathlib.Data.List.Dedup
/-
Counters and sorted factors.
-/
namespace Verif.Moment
open Verif.Common Verif.MomentMatrix Verif.SymMM

/-! ### the order of atoms -/

theorem atomLe_total (a b : Atom) : atomLe a b = true ∨ atomLe b a = true := by
  unfold atomLe
  simp only [Bool.or_eq_true, decide_eq_true_eq, Bool.and_eq_true, beq_iff_eq]
  rcases Nat.lt_trichotomy a.length b.length with h | h | h
  · exact .inl (.inl h)
  · rcases lexLe_total a b with h' | h'
    · exact .inl (.inr ⟨h, h'⟩)
    · exact .inr (.inr ⟨h.symm, h'⟩)
  · exact .inr (.inl h)

theorem atomLe_antisymm (a b : Atom) (h1 : atomLe a b = true) (h2 : atomLe b a = true) : a = b := by
  unfold atomLe at h1 h2
  simp only [Bool.or_eq_true, decide_eq_true_eq, Bool.and_eq_true, beq_iff_eq] at h1 h2
  rcases h1 with h1 | h1 <;> rcases h2 with h2 | h2
  · omega
  · omega
  · omega
  · exact lexLe_antisymm _ _ h1.2 h2.2

theorem atomLe_trans (a b c : Atom) (h1 : atomLe a b = true) (h2 : atomLe b c = true) : atomLe a c = true := by
  unfold atomLe at h1 h2 ⊢
  simp only [Bool.or_eq_true, decide_eq_true_eq, Bool.and_eq_true, beq_iff_eq] at h1 h2 ⊢
  rcases h1 with h1 | h1 <;> rcases h2 with h2 | h2
  · left; omega
  · left; omega
  · left; omega
  · right; exact ⟨h1.1.trans h2.1, lexLe_trans _ _ _ h1.2 h2.2⟩

theorem sort_perm {l m : List Atom} (h : l.Perm m) : sortBy atomLe l = sortBy atomLe m :=
  sortBy_eq_of_perm atomLe atomLe_total atomLe_trans atomLe_antisymm h

/-! ### counters -/

variable {α : Type*} [BEq α] [LawfulBEq α] [DecidableEq α]

theorem elements_count (l : List α) (p : α → Bool) (x : α) :
    (elements ((counter l).filter fun t => p t.1)).count x = if p x then l.count x else 0 := by
  unfold elements counter
  have key : ∀ (d : List α), d.Nodup → ((((d.map fun a => (a, l.count a)).filter fun t => p t.1).flatMap fun t => List.replicate t.2 t.1).count x) =
      if x ∈ d ∧ p x = true then l.count x else 0 := by
    intro d
    induction d with
    | nil => intro _; simp
    | cons a d ih =>
      intro hn
      rw [List.nodup_cons] at hn
      rw [List.map_cons, List.filter_cons]
      by_cases hp : p a = true
      · rw [if_pos (by simpa using hp)]
        rw [List.flatMap_cons, List.count_append, ih hn.2]
        simp only
        by_cases hx : x = a
        · subst hx
          simp [hn.1, hp, List.count_replicate_self]
        · have : (List.replicate (l.count a) a).count x = 0 := by
            rw [List.count_eq_zero]
            intro h
            exact hx (List.eq_of_mem_replicate h)
          rw [this]
          simp [hx]
      · rw [if_neg (by simpa using hp), ih hn.2]
        by_cases hx : x = a
        · subst hx
          simp [hp]
        · simp [hx]
  rw [key _ (nodup_dedupB l)]
  by_cases hx : x ∈ l
  · simp [mem_dedupB, hx]
  · have : l.count x = 0 := List.count_eq_zero.2 hx
    simp [this]

theorem elements_perm (l : List α) (p : α → Bool) : (elements ((counter l).filter fun t => p t.1)).Perm (l.filter p) := by
  rw [List.perm_iff_count]
  intro x
  rw [elements_count]
  split
  · rename_i h
    rw [List.count_filter h]
  · rename_i h
    symm
    rw [List.count_eq_zero]
    intro hm
    exact h (List.mem_filter.1 hm).2

theorem counter_lookup (l : List α) (x : α) : ((counter l).lookup x).getD 0 = l.count x := by
  unfold counter
  have key : ∀ d : List α, ((d.map fun a => (a, l.count a)).lookup x).getD 0 = if x ∈ d then l.count x else 0 := by
    intro d
    induction d with
    | nil => rfl
    | cons a d ih =>
      rw [List.map_cons, List.lookup_cons]
      by_cases h : x = a
      · subst h; simp
      · have : (x == a) = false := by simpa using h
        rw [this, ih]
        simp [h]
  rw [key]
  by_cases hx : x ∈ l
  · simp [mem_dedupB, hx]
  · simp [mem_dedupB, hx, List.count_eq_zero.2 hx]

theorem counterEq_iff (l m : List Atom) : counterEq (counter l) (counter m) = true ↔ l.Perm m := by
  unfold counterEq
  rw [Bool.and_eq_true, List.all_eq_true, List.all_eq_true, List.perm_iff_count]
  have hm : ∀ l : List Atom, ∀ t ∈ counter l, t.2 = l.count t.1 ∧ t.1 ∈ l := by
    intro l t ht
    unfold counter at ht
    rw [List.mem_map] at ht
    obtain ⟨a, ha, rfl⟩ := ht
    exact ⟨rfl, mem_dedupB.1 ha⟩
  have hmem : ∀ (l : List Atom) x, x ∈ l → (x, l.count x) ∈ counter l := by
    intro l x hx
    unfold counter
    exact List.mem_map.2 ⟨x, mem_dedupB.2 hx, rfl⟩
  constructor
  · rintro ⟨h1, h2⟩ x
    by_cases hx : x ∈ l
    · have := h1 _ (hmem l x hx)
      simp only [decide_eq_true_eq, counter_lookup] at this
      exact this.symm
    · by_cases hy : x ∈ m
      · have := h2 _ (hmem m x hy)
        simpa only [decide_eq_true_eq, counter_lookup] using this
      · rw [List.count_eq_zero.2 hx, List.count_eq_zero.2 hy]
  · intro h
    constructor
    · intro t ht
      rw [decide_eq_true_eq, counter_lookup, (hm l t ht).1, h]
    · intro t ht
      rw [decide_eq_true_eq, counter_lookup, (hm m t ht).1, h]

/-- product over a counter -/
theorem prod_counter {M : Type*} [CommMonoid M] (l : List α) (f : α → M) : ((counter l).map fun t => f t.1 ^ t.2).prod = (l.map f).prod := by
  have h1 := (elements_perm l (fun _ => true))
  simp only [List.filter_true] at h1
  rw [← (h1.map f).prod_eq]
  unfold elements
  induction counter l with
  | nil => rfl
  | cons t c ih => simp [ih]

end Verif.Moment

import Mathlib.Data.List.GetD
import Verif.Common.SortLemmas
/-
`numpy.unique` on lists of integers: the sorted distinct values, the position of the first occurrence of each, and the index of
each entry among the values.
-/
namespace Verif.Common

/-- Values returned by `np.unique`. -/
def npUnique (l : List Nat) : List Nat := sortBy (fun a b => decide (a ≤ b)) (dedupB l)

/-- `return_index` of `np.unique`: first position of each value. -/
def npUniquePos (l : List Nat) : List Nat := (npUnique l).map fun v => l.idxOf v

/-- `return_inverse` of `np.unique`: position of each entry among the values. -/
def npUniqueInv (l : List Nat) : List Nat := l.map fun v => (npUnique l).idxOf v

theorem mem_npUnique {l : List Nat} {x : Nat} : x ∈ npUnique l ↔ x ∈ l := by
  rw [npUnique, mem_sortBy, mem_dedupB]

theorem npUnique_sorted (l : List Nat) : (npUnique l).Pairwise (· < ·) := by
  have h1 := sortBy_sorted (fun a b : Nat => decide (a ≤ b)) (fun a b => by simp; omega)
    (fun a b c => by simp; omega) (dedupB l)
  have h2 : (npUnique l).Nodup := (sortBy_perm _ _).nodup_iff.2 (nodup_dedupB l)
  unfold npUnique at h2 ⊢
  refine List.Pairwise.imp ?_ (List.Pairwise.and h1 h2)
  rintro a b ⟨h3, h4⟩
  have : a ≤ b := by simpa using h3
  omega

theorem npUnique_nodup (l : List Nat) : (npUnique l).Nodup := by
  refine List.Pairwise.imp ?_ (npUnique_sorted l)
  intro a b h; omega

theorem npUnique_length_le (l : List Nat) : (npUnique l).length ≤ l.length := by
  have : ∀ l : List Nat, (dedupB l).length ≤ l.length := by
    intro l
    induction l with
    | nil => simp [dedupB]
    | cons a l ih =>
      simp only [dedupB, List.length_cons]
      have := List.length_filter_le (fun b => !(b == a)) (dedupB l)
      omega
  rw [npUnique, (sortBy_perm _ _).length_eq]
  exact this l

/-- In a strictly increasing list positions are ordered as the values. -/
theorem idxOf_lt_iff {l : List Nat} (hs : l.Pairwise (· < ·)) {a b : Nat} (ha : a ∈ l) (hb : b ∈ l) :
    l.idxOf a < l.idxOf b ↔ a < b := by
  have ha' := List.idxOf_lt_length_iff.2 ha
  have hb' := List.idxOf_lt_length_iff.2 hb
  have ea : l[l.idxOf a] = a := List.getElem_idxOf _
  have eb : l[l.idxOf b] = b := List.getElem_idxOf _
  have hp := List.pairwise_iff_getElem.1 hs
  constructor
  · intro h
    have := hp _ _ ha' hb' h
    omega
  · intro h
    by_contra hge
    rcases Nat.lt_or_ge (l.idxOf b) (l.idxOf a) with h1 | h1
    · have := hp _ _ hb' ha' h1
      omega
    · have e : l.idxOf a = l.idxOf b := by omega
      simp only [e] at ea
      omega

theorem idxOf_le_iff {l : List Nat} (hs : l.Pairwise (· < ·)) {a b : Nat} (ha : a ∈ l) (hb : b ∈ l) :
    l.idxOf a ≤ l.idxOf b ↔ a ≤ b := by
  have := idxOf_lt_iff hs hb ha
  omega

theorem idxOf_eq_iff {l : List Nat} {a b : Nat} (ha : a ∈ l) : l.idxOf a = l.idxOf b ↔ a = b := by
  constructor
  · intro h; exact (List.idxOf_inj ha).1 h
  · rintro rfl; rfl

/-- A list without repetitions whose `k`-th entry is at most `k` is `0, 1, 2, ...`. -/
theorem eq_range_of_le {f : List Nat} (hnd : f.Nodup) (hle : ∀ k (h : k < f.length), f[k] ≤ k) : f = List.range f.length := by
  apply List.ext_getElem (by simp)
  intro k h1 h2
  simp only [List.getElem_range]
  induction k using Nat.strongRecOn with
  | ind k ih =>
    have := hle k h1
    by_contra hne
    have hlt : f[k] < k := by omega
    have := ih f[k] hlt (by omega) (by simp; omega)
    have := hnd.getElem_inj_iff.1 this
    omega

theorem npUnique_length_eq {l : List Nat} (h : (npUnique l).length = l.length) : l.Nodup := by
  have hsub : (npUnique l).Subperm l := List.subperm_of_subset (npUnique_nodup l) fun x hx => mem_npUnique.1 hx
  exact (hsub.perm_of_length_le (by omega)).nodup_iff.1 (npUnique_nodup l)

end Verif.Common

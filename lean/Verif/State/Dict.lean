import Mathlib.Data.List.Basic
import Mathlib.Data.List.Nodup
/-
Python dictionaries as association lists in insertion order. Only the behaviour of `d[k] = v`, `del d[k]`, `d.get(k)` and iteration order is modelled.
-/
namespace Verif.State

abbrev Dict (α β : Type) := List (α × β)

variable {α β : Type} [DecidableEq α]

/-- `d[k] = v`: an existing key keeps its position. -/
def Dict.set : Dict α β → α → β → Dict α β
  | [], k, v => [(k, v)]
  | (a, b) :: d, k, v => if a = k then (a, v) :: d else (a, b) :: Dict.set d k v

/-- `d.get(k)`. -/
def Dict.get : Dict α β → α → Option β
  | [], _ => none
  | (a, b) :: d, k => if a = k then some b else Dict.get d k

/-- `d.pop(k, None)`. -/
def Dict.erase (d : Dict α β) (k : α) : Dict α β := d.filter fun t => !(decide (t.1 = k))

/-- `d.keys()`. -/
def Dict.keys (d : Dict α β) : List α := d.map Prod.fst

@[simp] theorem get_nil (k : α) : Dict.get ([] : Dict α β) k = none := rfl

theorem get_cons (a : α) (b : β) (d : Dict α β) (k : α) : Dict.get ((a, b) :: d) k = if a = k then some b else Dict.get d k := rfl

theorem get_set (d : Dict α β) (k k' : α) (v : β) : (d.set k v).get k' = if k = k' then some v else d.get k' := by
  induction d with
  | nil => simp [Dict.set, get_cons]
  | cons t d ih =>
    obtain ⟨a, b⟩ := t
    by_cases h : a = k
    · subst h
      simp only [Dict.set, if_true, get_cons]
      split <;> rfl
    · simp only [Dict.set, h, if_false, get_cons, ih]
      by_cases h2 : a = k'
      · subst h2
        have : ¬ k = a := fun e => h e.symm
        simp [this]
      · simp [h2]

theorem mem_keys (d : Dict α β) (k : α) : k ∈ d.keys ↔ ∃ v, d.get k = some v := by
  induction d with
  | nil => simp [Dict.keys]
  | cons t d ih =>
    obtain ⟨a, b⟩ := t
    simp only [Dict.keys, List.map_cons, List.mem_cons, get_cons] at ih ⊢
    by_cases e : a = k
    · simp [e]
    · have : ¬ k = a := fun h => e h.symm
      simp [e, this, ih]

theorem get_filter (d : Dict α β) (p : α × β → Bool) (hd : d.keys.Nodup) (k : α) (v : β) :
    Dict.get (d.filter p) k = some v ↔ d.get k = some v ∧ p (k, v) = true := by
  induction d with
  | nil => simp
  | cons t d ih =>
    obtain ⟨a, b⟩ := t
    simp only [Dict.keys, List.map_cons, List.nodup_cons] at hd
    have ih := ih hd.2
    have hnot : ∀ w, a = k → ¬ Dict.get d k = some w := by
      intro w e hw
      subst e
      exact hd.1 ((mem_keys d a).2 ⟨w, hw⟩)
    by_cases hp : p (a, b) = true
    · rw [List.filter_cons_of_pos hp, get_cons, get_cons]
      by_cases e : a = k
      · subst e
        simp only [if_true, Option.some.injEq]
        constructor
        · rintro rfl; exact ⟨rfl, hp⟩
        · exact fun h => h.1
      · simp [e, ih]
    · rw [List.filter_cons_of_neg hp, get_cons, ih]
      by_cases e : a = k
      · subst e
        simp only [if_true, Option.some.injEq]
        constructor
        · exact fun h => absurd h.1 (hnot v rfl)
        · rintro ⟨rfl, h⟩; exact absurd h hp
      · simp [e]

theorem get_none (d : Dict α β) (k : α) : d.get k = none ↔ k ∉ d.keys := by
  rw [mem_keys]
  cases d.get k <;> simp

theorem mem_set_keys (d : Dict α β) (k : α) (v : β) (x : α) : x ∈ (d.set k v).keys ↔ x = k ∨ x ∈ d.keys := by
  rw [mem_keys, mem_keys]
  simp only [get_set]
  by_cases e : k = x
  · simp [e]
  · have : ¬ x = k := fun h => e h.symm
    simp [e, this]

theorem nodup_set (d : Dict α β) (k : α) (v : β) (h : d.keys.Nodup) : (d.set k v).keys.Nodup := by
  induction d with
  | nil => simp [Dict.set, Dict.keys]
  | cons t d ih =>
    obtain ⟨a, b⟩ := t
    by_cases e : a = k
    · simpa [Dict.set, Dict.keys, e] using h
    · have h' : a ∉ Dict.keys d ∧ (Dict.keys d).Nodup := by simpa [Dict.keys] using h
      have : (a :: Dict.keys (Dict.set d k v)).Nodup := by
        rw [List.nodup_cons]
        refine ⟨?_, ih h'.2⟩
        rw [mem_set_keys]
        rintro (h1 | h1)
        · exact e h1
        · exact h'.1 h1
      simpa [Dict.set, e, Dict.keys] using this

omit [DecidableEq α] in
theorem nodup_filter (d : Dict α β) (p : α × β → Bool) (h : d.keys.Nodup) : Dict.keys (d.filter p) |>.Nodup :=
  h.sublist (List.filter_sublist.map _)

theorem get_of_mem (d : Dict α β) (hd : d.keys.Nodup) (k : α) (v : β) : (k, v) ∈ d ↔ d.get k = some v := by
  induction d with
  | nil => simp
  | cons t d ih =>
    obtain ⟨a, b⟩ := t
    simp only [Dict.keys, List.map_cons, List.nodup_cons] at hd
    have ih := ih hd.2
    rw [get_cons, List.mem_cons, ih]
    by_cases e : a = k
    · subst e
      have : ¬ Dict.get d a = some v := by
        intro h
        exact hd.1 ((mem_keys d a).2 ⟨v, h⟩)
      simp only [Prod.mk.injEq, true_and, this, or_false, if_true, Option.some.injEq]
      exact eq_comm
    · have : ¬ k = a := fun h => e h.symm
      simp [e, this]

end Verif.State

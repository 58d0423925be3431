import Verif.Normalization.Model
import Verif.Normalization.Spec
import Verif.Common.SortLemmas
import Verif.LpSolver.Dicts
import Verif.CollinsGisin.Rows
import Mathlib.Algebra.BigOperators.Ring.List
namespace Verif.Normalization
open Verif.State Verif.Common Verif.Scenario Verif.LpSolver Verif.CollinsGisin

theorem columnIndexAux_get (cols : List (List Nat)) (i : Nat) (d : Dict (List Nat) Nat) (m : List Nat) (n : Nat)
    (h : Dict.get (columnIndexAux i d cols) m = some n) : Dict.get d m = some n ∨ (i ≤ n ∧ cols[n - i]? = some m) := by
  induction cols generalizing i d with
  | nil => exact .inl h
  | cons c cols ih =>
    rcases ih (i + 1) _ h with h | ⟨h1, h2⟩
    · rw [get_set] at h
      split at h
      · rename_i e
        right
        simp only [Option.some.injEq] at h
        subst h
        simp [e]
      · exact .inl h
    · right
      refine ⟨by omega, ?_⟩
      have : n - i = (n - (i + 1)) + 1 := by omega
      rw [this]
      simpa using h2

theorem columnIndex_get {cols : List (List Nat)} {m : List Nat} {n : Nat} (h : Dict.get (columnIndex cols) m = some n) :
    cols[n]? = some m := by
  rcases columnIndexAux_get cols 0 [] m n h with h | ⟨_, h⟩
  · simp at h
  · simpa using h

theorem columnIndexAux_isSome (cols : List (List Nat)) (i : Nat) (d : Dict (List Nat) Nat) (m : List Nat)
    (h : m ∈ cols ∨ ∃ n, Dict.get d m = some n) : ∃ n, Dict.get (columnIndexAux i d cols) m = some n := by
  induction cols generalizing i d with
  | nil => simpa [columnIndexAux] using h
  | cons c cols ih =>
    apply ih
    by_cases e : c = m
    · right
      exact ⟨i, by rw [get_set]; simp [e]⟩
    · rcases h with h | ⟨n, h⟩
      · rcases List.mem_cons.1 h with h | h
        · exact absurd h.symm e
        · exact .inl h
      · exact .inr ⟨n, by rw [get_set]; simp [e, h]⟩

theorem columnIndex_isSome {cols : List (List Nat)} {m : List Nat} (h : m ∈ cols) : ∃ n, Dict.get (columnIndex cols) m = some n :=
  columnIndexAux_isSome cols 0 [] m (.inl h)

/-- One step of `orthoDict`. -/
def orthoStep (d : Dict Nat (List Nat)) (g : List Nat) : Dict Nat (List Nat) := match g.getLast? with
    | some x => d.set x g
    | none => d

theorem orthoDict_aux (groups : List (List Nat)) (d : Dict Nat (List Nat)) (x : Nat) (g : List Nat)
    (h : Dict.get (groups.foldl orthoStep d) x = some g) : Dict.get d x = some g ∨ (g ∈ groups ∧ g.getLast? = some x) := by
  induction groups generalizing d with
  | nil => exact .inl h
  | cons k groups ih =>
    rcases ih _ h with h | h
    · unfold orthoStep at h
      rcases hk : k.getLast? with _ | y
      · rw [hk] at h; exact .inl h
      · rw [hk] at h
        simp only [get_set] at h
        split at h
        · rename_i e
          simp only [Option.some.injEq] at h
          right
          subst h
          exact ⟨by simp, by rw [hk, e]⟩
        · exact .inl h
    · exact .inr ⟨List.mem_cons_of_mem _ h.1, h.2⟩

theorem orthoDict_get {groups : List (List Nat)} {x : Nat} {g : List Nat} (h : Dict.get (orthoDict groups) x = some g) :
    g ∈ groups ∧ g.getLast? = some x := by
  rcases orthoDict_aux groups [] x g h with h | h
  · simp at h
  · exact h

theorem orthoDict_isSome_aux (groups : List (List Nat)) (d : Dict Nat (List Nat)) (x : Nat)
    (h : (∃ g ∈ groups, g.getLast? = some x) ∨ ∃ g, Dict.get d x = some g) : ∃ g, Dict.get (groups.foldl orthoStep d) x = some g := by
  induction groups generalizing d with
  | nil => simpa using h
  | cons k groups ih =>
    apply ih
    rcases h with ⟨g, hg, e⟩ | ⟨g, h⟩
    · rcases List.mem_cons.1 hg with rfl | hg
      · right
        exact ⟨g, by unfold orthoStep; rw [e]; simp [get_set]⟩
      · exact .inl ⟨g, hg, e⟩
    · right
      unfold orthoStep
      rcases hk : k.getLast? with _ | y
      · exact ⟨g, h⟩
      · simp only [get_set]
        split
        · exact ⟨k, rfl⟩
        · exact ⟨g, h⟩

theorem orthoDict_isSome {groups : List (List Nat)} {x : Nat} (h : ∃ g ∈ groups, g.getLast? = some x) :
    ∃ g, Dict.get (orthoDict groups) x = some g := orthoDict_isSome_aux groups [] x (.inl h)

variable {R : Type*} [Ring R]

theorem op_set (ρ : Nat → R) (m : List Nat) (i x : Nat) (h : i < m.length) :
    op ρ (m.set i x) = op ρ (m.take i) * ρ x * op ρ (m.drop (i + 1)) := by
  rw [List.set_eq_take_append_cons_drop, if_pos h]
  simp [op, mul_assoc]

theorem op_erase (ρ : Nat → R) (m : List Nat) (i : Nat) : op ρ (m.eraseIdx i) = op ρ (m.take i) * op ρ (m.drop (i + 1)) := by
  rw [List.eraseIdx_eq_take_drop_succ]
  simp [op]

theorem sum_mul_both {α : Type*} (l : List α) (f : α → R) (a b : R) : (l.map fun x => a * f x * b).sum = a * (l.map f).sum * b := by
  rw [List.sum_map_mul_right, List.sum_map_mul_left]

/-- Replacing an operator by all outcomes of its measurement and adding up removes it. -/
theorem op_sum {ρ : Nat → R} {g : List Nat} (hg : (g.map ρ).sum = 1) (m : List Nat) (i : Nat) (h : i < m.length) :
    op ρ (m.eraseIdx i) = (g.map fun x => op ρ (m.set i x)).sum := by
  have : (g.map fun x => op ρ (m.set i x)) = g.map fun x => op ρ (m.take i) * ρ x * op ρ (m.drop (i + 1)) := by
    apply List.map_congr_left
    intro x _
    exact op_set ρ m i x h
  rw [this, sum_mul_both, hg, op_erase, mul_one]

theorem proposals_mem {mask : List Bool} {ortho : Dict Nat (List Nat)} {m : List Nat} {ps : List (List Nat × List (List Nat))}
    (h : proposals mask ortho m = some ps) {p : List Nat × List (List Nat)} (hp : p ∈ ps) :
    ∃ i g, i < m.length ∧ mask.getD (m.getD i 0) false = true ∧ Dict.get ortho (m.getD i 0) = some g ∧ p = (m.eraseIdx i, g.map fun x => m.set i x) := by
  obtain ⟨i, hi, e⟩ := forall₂_right (mapM_forall₂ h) hp
  simp only [List.mem_filter, List.mem_range] at hi
  rw [Option.map_eq_some_iff] at e
  obtain ⟨g, hg, e⟩ := e
  exact ⟨i, g, hi.1, hi.2, hg, e.symm⟩

theorem accept_mem {index : Dict (List Nat) Nat} {ps : List (List Nat × List (List Nat))} {e : Nat × List Nat}
    (h : e ∈ acceptProposals index ps) : ∃ p ∈ ps, lookupEq index p = some e := by
  induction ps with
  | nil => simp [acceptProposals] at h
  | cons p ps ih =>
    unfold acceptProposals at h
    rcases hp : lookupEq index p with _ | e'
    · rw [hp] at h; simp at h
    · rw [hp] at h
      rcases List.mem_cons.1 h with rfl | h
      · exact ⟨p, by simp, hp⟩
      · obtain ⟨q, hq, e⟩ := ih h
        exact ⟨q, List.mem_cons_of_mem _ hq, e⟩

theorem lookupEq_some {cols : List (List Nat)} {p : List Nat × List (List Nat)} {e : Nat × List Nat}
    (h : lookupEq (columnIndex cols) p = some e) :
    cols[e.1]? = some p.1 ∧ List.Forall₂ (fun m (j : Nat) => cols[j]? = some m) p.2 e.2 := by
  unfold lookupEq at h
  rw [Option.bind_eq_some_iff] at h
  obtain ⟨n, hn, h⟩ := h
  rw [Option.map_eq_some_iff] at h
  obtain ⟨s, hs, rfl⟩ := h
  refine ⟨columnIndex_get hn, ?_⟩
  exact (mapM_forall₂ hs).imp fun _ _ h => columnIndex_get h

theorem discover_mem {mask : List Bool} {ortho : Dict Nat (List Nat)} {cols : List (List Nat)} {eqs : List (Nat × List Nat)}
    (h : discover mask ortho cols = some eqs) {e : Nat × List Nat} (he : e ∈ eqs) :
    ∃ m ∈ cols, ∃ i g, i < m.length ∧ mask.getD (m.getD i 0) false = true ∧ Dict.get ortho (m.getD i 0) = some g ∧
      cols[e.1]? = some (m.eraseIdx i) ∧ List.Forall₂ (fun m (j : Nat) => cols[j]? = some m) (g.map fun x => m.set i x) e.2 := by
  unfold discover at h
  rw [Option.map_eq_some_iff] at h
  obtain ⟨r, hr, rfl⟩ := h
  obtain ⟨l, hl, he⟩ := List.mem_flatten.1 he
  obtain ⟨m, hm, hml⟩ := forall₂_right (mapM_forall₂ hr) hl
  rw [Option.map_eq_some_iff] at hml
  obtain ⟨ps, hps, rfl⟩ := hml
  obtain ⟨p, hp, hpe⟩ := accept_mem he
  obtain ⟨i, g, h1, h2, h3, rfl⟩ := proposals_mem hps hp
  obtain ⟨h4, h5⟩ := lookupEq_some hpe
  exact ⟨m, hm, i, g, h1, h2, h3, h4, h5⟩

theorem forall₂_cols_sum {cols : List (List Nat)} (f : List Nat → R) {ms : List (List Nat)} {js : List Nat}
    (h : List.Forall₂ (fun m (j : Nat) => cols[j]? = some m) ms js) :
    (ms.map f).sum = (js.map fun j => f (cols.getD j [])).sum ∧ ∀ j ∈ js, j < cols.length := by
  induction h with
  | nil => simp
  | @cons m j ms js hm _ ih =>
    refine ⟨?_, ?_⟩
    · simp only [List.map_cons, List.sum_cons, ih.1]
      simp [List.getD_eq_getElem?_getD, hm]
    · intro x hx
      rcases List.mem_cons.1 hx with rfl | hx
      · exact (List.getElem?_eq_some_iff.1 hm).1
      · exact ih.2 x hx

/-- Every index equality comes from a column equality and a row without vanishing summands. -/
theorem constructStep_mem {eq : Nat × List Nat} {st : List (Nat × List Nat) × List (List Nat)} {row : List Nat} {e : Nat × List Nat}
    (h : e ∈ (constructStep eq st row).1) : e ∈ st.1 ∨
      (e.1 = row.getD eq.1 0 ∧ e.2.Perm (eq.2.map fun j => row.getD j 0) ∧ ∀ x ∈ e.2, x ≠ 0) := by
  unfold constructStep at h
  simp only at h
  split at h
  · rename_i hall
    split at h
    · exact .inl h
    · rcases List.mem_append.1 h with h | h
      · exact .inl h
      · right
        rw [List.mem_singleton] at h
        subst h
        refine ⟨rfl, sortBy_perm _ _, ?_⟩
        intro x hx
        rw [mem_sortBy] at hx
        simpa using List.all_eq_true.1 hall x hx
  · exact .inl h

theorem construct_mem {colEqs : List (Nat × List Nat)} {mm : List (List Nat)} {e : Nat × List Nat} (h : e ∈ construct colEqs mm) :
    ∃ eq ∈ colEqs, ∃ row ∈ mm, e.1 = row.getD eq.1 0 ∧ e.2.Perm (eq.2.map fun j => row.getD j 0) ∧ ∀ x ∈ e.2, x ≠ 0 := by
  have inner : ∀ (eq : Nat × List Nat) (rows : List (List Nat)) (st : List (Nat × List Nat) × List (List Nat)),
      e ∈ (rows.foldl (constructStep eq) st).1 → e ∈ st.1 ∨ ∃ row ∈ rows, e.1 = row.getD eq.1 0 ∧ e.2.Perm (eq.2.map fun j => row.getD j 0) ∧ ∀ x ∈ e.2, x ≠ 0 := by
    intro eq rows
    induction rows with
    | nil => intro st h; exact .inl h
    | cons r rows ih =>
      intro st h
      rcases ih _ h with h | ⟨row, hr, h⟩
      · rcases constructStep_mem h with h | h
        · exact .inl h
        · exact .inr ⟨r, by simp, h⟩
      · exact .inr ⟨row, List.mem_cons_of_mem _ hr, h⟩
  have outer : ∀ (eqs : List (Nat × List Nat)) (st : List (Nat × List Nat) × List (List Nat)),
      e ∈ (eqs.foldl (fun st eq => mm.foldl (constructStep eq) st) st).1 → e ∈ st.1 ∨
        ∃ eq ∈ eqs, ∃ row ∈ mm, e.1 = row.getD eq.1 0 ∧ e.2.Perm (eq.2.map fun j => row.getD j 0) ∧ ∀ x ∈ e.2, x ≠ 0 := by
    intro eqs
    induction eqs with
    | nil => intro st h; exact .inl h
    | cons eq eqs ih =>
      intro st h
      rcases ih _ h with h | ⟨q, hq, h⟩
      · rcases inner eq mm st h with h | h
        · exact .inl h
        · exact .inr ⟨eq, by simp, h⟩
      · exact .inr ⟨q, List.mem_cons_of_mem _ hq, h⟩
  rcases outer colEqs ([], []) h with h | h
  · simp at h
  · exact h

end Verif.Normalization

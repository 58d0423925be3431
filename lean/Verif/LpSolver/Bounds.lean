import Verif.LpSolver.Spec
import Mathlib.Tactic.Ring
import Mathlib.Tactic.Linarith
import Mathlib.Algebra.Order.Ring.Rat
/-!
C29: bounds passed as inequalities (`_prepare_solver_matrices(separate_bounds=False)`, InflationLP.py 1885-1891) say the same as bounds.
-/
namespace Verif.LpSolver

variable {K : Type} [Field K] [LinearOrder K] [IsStrictOrderedRing K]

omit [LinearOrder K] [IsStrictOrderedRing K] in
theorem rowAt_expandBound (sign : K) (v : Coo K) (x : Nat → K) (i : Nat) (hi : i < v.ents.length) :
    rowAt (expandBound sign v).ents x i = sign * (v.ents[i].2.2 * x 0 - x v.ents[i].2.1) := by
  have key : ∀ (l : List (Nat × Nat × K)) (k : Nat) (i : Nat) (hi : i < l.length),
      ((((l.mapIdx fun j e => [(j + k, e.2.1, sign * (-1)), (j + k, 0, sign * e.2.2)]).flatten).filter fun e => e.1 == i + k).map fun e => e.2.2 * x e.2.1).sum =
        sign * (l[i].2.2 * x 0 - x l[i].2.1) := by
    intro l
    induction l with
    | nil => intro k i hi; simp at hi
    | cons e l ih =>
      intro k i hi
      rw [List.mapIdx_cons, List.flatten_cons, List.filter_append, List.map_append, List.sum_append]
      have hshift : (l.mapIdx fun j (e : Nat × Nat × K) => [(j + 1 + k, e.2.1, sign * (-1)), (j + 1 + k, 0, sign * e.2.2)]) =
          l.mapIdx fun j e => [(j + (k + 1), e.2.1, sign * (-1)), (j + (k + 1), 0, sign * e.2.2)] := by
        congr 1
        funext j e
        rw [show j + 1 + k = j + (k + 1) by omega]
      cases i with
      | zero =>
        have h0 : (((l.mapIdx fun j (e : Nat × Nat × K) => [(j + 1 + k, e.2.1, sign * (-1)), (j + 1 + k, 0, sign * e.2.2)]).flatten).filter fun e => e.1 == 0 + k) = [] := by
          rw [List.filter_eq_nil_iff]
          intro t ht
          obtain ⟨b, hb, ht⟩ := List.mem_flatten.1 ht
          obtain ⟨j, hj, rfl⟩ := List.mem_mapIdx.1 hb
          simp only [List.mem_cons, List.not_mem_nil, or_false] at ht
          rcases ht with rfl | rfl <;> simp <;> omega
        rw [h0]
        simp
        ring
      | succ i =>
        rw [hshift, show i + 1 + k = i + (k + 1) by omega, ih (k + 1) i (by simpa using hi)]
        have : ([(0 + k, e.2.1, sign * (-1)), (0 + k, 0, sign * e.2.2)].filter fun e => e.1 == i + (k + 1)) = [] := by
          rw [List.filter_eq_nil_iff]
          intro t ht
          simp only [List.mem_cons, List.not_mem_nil, or_false] at ht
          rcases ht with rfl | rfl <;> simp <;> omega
        rw [this]
        simp
  have := key v.ents 0 i hi
  simpa [rowAt, expandBound] using this

/-- **C29, bounds as inequalities.** When the variable of column 0 is 1, the inequalities obtained from lower bounds hold exactly when every bounded variable is at least its
bound, and those obtained from upper bounds exactly when it is at most its bound. -/
theorem C29_bounds_as_rows (v : Coo K) (x : Nat → K) (h0 : x 0 = 1) :
    ((∀ i, i < (expandBound (-1) v).rows → 0 ≤ rowAt (expandBound (-1) v).ents x i) ↔ ∀ e ∈ v.ents, e.2.2 ≤ x e.2.1) ∧
    ((∀ i, i < (expandBound 1 v).rows → 0 ≤ rowAt (expandBound 1 v).ents x i) ↔ ∀ e ∈ v.ents, x e.2.1 ≤ e.2.2) := by
  have hr : ∀ s : K, (expandBound s v).rows = v.ents.length := fun _ => rfl
  constructor
  · constructor
    · intro h e he
      obtain ⟨i, hi, rfl⟩ := List.getElem_of_mem he
      have := h i hi
      rw [rowAt_expandBound _ _ _ _ hi, h0] at this
      linarith
    · intro h i hi
      rw [hr] at hi
      rw [rowAt_expandBound _ _ _ _ hi, h0]
      have := h _ (List.getElem_mem hi)
      linarith
  · constructor
    · intro h e he
      obtain ⟨i, hi, rfl⟩ := List.getElem_of_mem he
      have := h i hi
      rw [rowAt_expandBound _ _ _ _ hi, h0] at this
      linarith
    · intro h i hi
      rw [hr] at hi
      rw [rowAt_expandBound _ _ _ _ hi, h0]
      have := h _ (List.getElem_mem hi)
      linarith

example : expandBound (-1) (⟨1, 4, [(0, 2, 1 / 3), (0, 3, 1 / 2)]⟩ : Coo ℚ) = ⟨2, 4, [(0, 2, 1), (0, 0, -1 / 3), (1, 3, 1), (1, 0, -1 / 2)]⟩ := by decide +kernel

end Verif.LpSolver

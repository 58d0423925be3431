import Mathlib.LinearAlgebra.Matrix.ConjTranspose
import Mathlib.LinearAlgebra.Matrix.Trace
import Mathlib.Analysis.Complex.Basic
import Mathlib.Logic.Equiv.Prod
/-!
Operators on tensor products of systems indexed by a finite type, as matrices whose rows and columns are indexed by assignments of basis states to the systems.
-/
set_option linter.unusedSectionVars false

namespace Verif.QuantumNet

variable {A : Type} [Fintype A] [DecidableEq A]

/-- Operators on the systems `J`. -/
abbrev Operator (J A : Type) : Type := Matrix (J → A) (J → A) ℂ

/-- The operator `X` on some systems `K`, which are the systems `f k` of `J`, and the identity on the other systems. -/
noncomputable def lift {K J : Type} (f : K → J) (X : Operator K A) : Operator J A :=
  open Classical in fun i j => if ∀ t, t ∉ Set.range f → i t = j t then X (i ∘ f) (j ∘ f) else 0

/-- The operator does not change the basis state of system `k`. -/
def DiagAt {K : Type} (X : Operator K A) (k : K) : Prop := ∀ i j, X i j ≠ 0 → i k = j k

section
variable {K L J : Type} [Fintype K] [DecidableEq K] [Fintype L] [DecidableEq L] [Fintype J] [DecidableEq J]

theorem lift_pos {f : K → J} {i j : J → A} (h : ∀ t, t ∉ Set.range f → i t = j t) (X : Operator K A) : lift f X i j = X (i ∘ f) (j ∘ f) := by
  unfold lift
  rw [if_pos h]

theorem lift_neg {f : K → J} {i j : J → A} (h : ¬ ∀ t, t ∉ Set.range f → i t = j t) (X : Operator K A) : lift f X i j = 0 := by
  unfold lift
  rw [if_neg h]

theorem lift_one {f : K → J} : lift f (1 : Operator K A) = 1 := by
  ext i j
  by_cases h : ∀ t, t ∉ Set.range f → i t = j t
  · rw [lift_pos h]
    by_cases hij : i = j
    · subst hij; rw [Matrix.one_apply_eq, Matrix.one_apply_eq]
    · rw [Matrix.one_apply_ne hij, Matrix.one_apply_ne]
      intro e
      apply hij
      funext t
      by_cases ht : t ∈ Set.range f
      · obtain ⟨k, rfl⟩ := ht
        exact congrFun e k
      · exact h t ht
  · rw [lift_neg h, Matrix.one_apply_ne]
    rintro rfl
    exact h fun _ _ => rfl

theorem lift_zero {f : K → J} : lift f (0 : Operator K A) = 0 := by
  ext i j
  unfold lift
  split <;> rfl

theorem lift_add {f : K → J} (X Y : Operator K A) : lift f (X + Y) = lift f X + lift f Y := by
  ext i j
  rw [Matrix.add_apply]
  unfold lift
  split
  · rfl
  · simp

theorem lift_listSum {f : K → J} {α : Type} (l : List α) (X : α → Operator K A) : lift f (l.map X).sum = (l.map fun a => lift f (X a)).sum := by
  induction l with
  | nil => exact lift_zero
  | cons a l ih => rw [List.map_cons, List.sum_cons, lift_add, ih, List.map_cons, List.sum_cons]

theorem lift_star {f : K → J} (X : Operator K A) : lift f (star X) = star (lift f X) := by
  ext i j
  rw [Matrix.star_apply]
  by_cases h : ∀ t, t ∉ Set.range f → i t = j t
  · rw [lift_pos h, lift_pos fun t ht => (h t ht).symm, Matrix.star_apply]
  · rw [lift_neg h, lift_neg fun h' => h fun t ht => (h' t ht).symm, star_zero]

open Classical in
/-- The product of two operators, the second of which acts on a subset of the systems of the first. -/
theorem mul_same {f : K → J} (hf : Function.Injective f) (X Y : Operator K A) : lift f X * lift f Y = lift f (X * Y) := by
  ext i j
  rw [Matrix.mul_apply]
  by_cases h : ∀ t, t ∉ Set.range f → i t = j t
  · rw [lift_pos h, Matrix.mul_apply]
    -- intermediate assignments agree with `i` outside of the range
    let g : (K → A) → (J → A) := fun m t => if ht : ∃ k, f k = t then m ht.choose else i t
    have hg1 : ∀ m k, g m (f k) = m k := by
      intro m k
      have : ∃ k', f k' = f k := ⟨k, rfl⟩
      show (if ht : ∃ k', f k' = f k then m ht.choose else i (f k)) = m k
      rw [dif_pos this]
      exact congrArg m (hf this.choose_spec)
    have hg2 : ∀ m t, t ∉ Set.range f → g m t = i t := by
      intro m t ht
      exact dif_neg ht
    symm
    refine Finset.sum_of_injOn g ?_ (by simp) ?_ ?_
    · intro m _ m' _ e
      funext k
      rw [← hg1 m k, ← hg1 m' k, e]
    · intro m _ hm
      by_cases hi : ∀ t, t ∉ Set.range f → i t = m t
      · exfalso
        apply hm
        refine ⟨m ∘ f, by simp, ?_⟩
        funext t
        by_cases ht : t ∈ Set.range f
        · obtain ⟨k, rfl⟩ := ht
          exact hg1 _ k
        · rw [hg2 _ t ht, hi t ht]
      · rw [lift_neg hi, zero_mul]
    · intro m _
      rw [lift_pos fun t ht => (hg2 m t ht).symm, lift_pos fun t ht => (hg2 m t ht).trans (h t ht)]
      have : g m ∘ f = m := funext fun k => hg1 m k
      rw [this]
  · rw [lift_neg h]
    apply Finset.sum_eq_zero
    intro m _
    by_cases hi : ∀ t, t ∉ Set.range f → i t = m t
    · rw [lift_neg (i := m), mul_zero]
      intro hj
      exact h fun t ht => (hi t ht).trans (hj t ht)
    · rw [lift_neg hi, zero_mul]

theorem lift_comp {f : K → J} {g : L → K} (hf : Function.Injective f) (X : Operator L A) : lift (f ∘ g) X = lift f (lift g X) := by
  ext i j
  by_cases h : ∀ t, t ∉ Set.range f → i t = j t
  · rw [lift_pos h]
    by_cases h' : ∀ k, k ∉ Set.range g → (i ∘ f) k = (j ∘ f) k
    · rw [lift_pos h', lift_pos]
      · rfl
      · intro t ht
        by_cases hk : t ∈ Set.range f
        · obtain ⟨k, rfl⟩ := hk
          exact h' k fun ⟨l, hl⟩ => ht ⟨l, by simp [hl]⟩
        · exact h t hk
    · rw [lift_neg h', lift_neg]
      intro hc
      apply h'
      intro k hk
      apply hc
      rintro ⟨l, hl⟩
      exact hk ⟨l, hf hl⟩
  · rw [lift_neg h, lift_neg]
    intro hc
    apply h
    intro t ht
    apply hc
    rintro ⟨l, hl⟩
    exact ht ⟨g l, hl⟩

open Classical in
/-- The product of operators that have only systems in common which they do not change. -/
theorem mul_apart {f : K → J} {g : L → J} {X : Operator K A} {Y : Operator L A}
    (hX : ∀ k, f k ∈ Set.range g → DiagAt X k) (hY : ∀ l, g l ∈ Set.range f → DiagAt Y l) (i j : J → A) :
    (lift f X * lift g Y) i j = if ∀ t, (t ∈ Set.range f ↔ t ∈ Set.range g) → i t = j t then X (i ∘ f) (j ∘ f) * Y (i ∘ g) (j ∘ g) else 0 := by
  rw [Matrix.mul_apply]
  let m : J → A := fun t => if t ∈ Set.range f then j t else i t
  rw [Finset.sum_eq_single m]
  · split
    · rename_i h
      rw [lift_pos fun t ht => (if_neg ht).symm, lift_pos]
      · have e1 : m ∘ f = j ∘ f := funext fun k => if_pos ⟨k, rfl⟩
        have e2 : m ∘ g = i ∘ g := by
          funext l
          show (if g l ∈ Set.range f then j (g l) else i (g l)) = i (g l)
          split
          · rename_i hl
            exact (h _ ⟨fun _ => ⟨l, rfl⟩, fun _ => hl⟩).symm
          · rfl
        rw [e1, e2]
      · intro t ht
        show (if t ∈ Set.range f then j t else i t) = j t
        split
        · rfl
        · rename_i ht'
          exact h t ⟨fun hc => absurd hc ht', fun hc => absurd hc ht⟩
    · rename_i h
      by_contra hne
      apply h
      have h1 : lift f X i m ≠ 0 := left_ne_zero_of_mul hne
      have h2 : lift g Y m j ≠ 0 := right_ne_zero_of_mul hne
      intro t ht
      by_cases htf : t ∈ Set.range f
      · obtain ⟨k, rfl⟩ := htf
        have hh : ∀ t, t ∉ Set.range f → i t = m t := by
          by_contra hc
          exact h1 (lift_neg hc X)
        rw [lift_pos hh] at h1
        have := hX k (ht.1 ⟨k, rfl⟩) _ _ h1
        exact this.trans (if_pos ⟨k, rfl⟩)
      · have htg : t ∉ Set.range g := fun hc => htf (ht.2 hc)
        have hh : ∀ t, t ∉ Set.range g → m t = j t := by
          by_contra hc
          exact h2 (lift_neg hc Y)
        exact (if_neg htf).symm.trans (hh t htg)
  · intro b _ hb
    by_contra hne
    apply hb
    have h1 : lift f X i b ≠ 0 := left_ne_zero_of_mul hne
    have h2 : lift g Y b j ≠ 0 := right_ne_zero_of_mul hne
    have hi : ∀ t, t ∉ Set.range f → i t = b t := by
      by_contra hc
      exact h1 (lift_neg hc X)
    have hj : ∀ t, t ∉ Set.range g → b t = j t := by
      by_contra hc
      exact h2 (lift_neg hc Y)
    rw [lift_pos hj] at h2
    funext t
    show b t = if t ∈ Set.range f then j t else i t
    split
    · rename_i htf
      by_cases htg : t ∈ Set.range g
      · obtain ⟨l, rfl⟩ := htg
        exact hY l htf _ _ h2
      · exact hj t htg
    · rename_i htf
      exact (hi t htf).symm
  · intro h
    exact absurd (Finset.mem_univ _) h

theorem commute_apart {f : K → J} {g : L → J} {X : Operator K A} {Y : Operator L A}
    (hX : ∀ k, f k ∈ Set.range g → DiagAt X k) (hY : ∀ l, g l ∈ Set.range f → DiagAt Y l) : lift f X * lift g Y = lift g Y * lift f X := by
  ext i j
  rw [mul_apart hX hY, mul_apart hY hX, mul_comm (X _ _)]
  have : (∀ t, (t ∈ Set.range f ↔ t ∈ Set.range g) → i t = j t) ↔ ∀ t, (t ∈ Set.range g ↔ t ∈ Set.range f) → i t = j t :=
    forall_congr' fun t => imp_congr_left Iff.comm
  simp only [this]

/-- Renaming systems. -/
theorem lift_perm {f : K → J} (π : J ≃ J) (X : Operator K A) : lift (π ∘ f) X = (lift f X).submatrix (· ∘ π) (· ∘ π) := by
  ext i j
  rw [Matrix.submatrix_apply]
  have : (∀ t, t ∉ Set.range (π ∘ f) → i t = j t) ↔ ∀ t, t ∉ Set.range f → (i ∘ π) t = (j ∘ π) t := by
    constructor
    · intro h t ht
      apply h
      rintro ⟨k, hk⟩
      exact ht ⟨k, π.injective hk⟩
    · intro h t ht
      have := h (π.symm t) (by rintro ⟨k, hk⟩; exact ht ⟨k, by simp [hk]⟩)
      simpa using this
  by_cases h : ∀ t, t ∉ Set.range f → (i ∘ π) t = (j ∘ π) t
  · rw [lift_pos h, lift_pos (this.2 h)]
    rfl
  · rw [lift_neg h, lift_neg fun h' => h (this.1 h')]

end

end Verif.QuantumNet

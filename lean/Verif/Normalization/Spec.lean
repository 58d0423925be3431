import Mathlib.Algebra.Star.Basic
import Verif.Positivity.Spec
import Mathlib.Algebra.BigOperators.Group.List.Basic
import Mathlib.Algebra.Ring.Basic
import Mathlib.Data.Real.Basic
/-
What the normalisation equalities are about: operators in a ring, complete measurements, moments of a linear functional.
-/
namespace Verif.Normalization

/-- The operator of a monomial. -/
def op {R : Type*} [Ring R] (ρ : Nat → R) (m : List Nat) : R := (m.map ρ).prod

/-- The outcomes of every measurement sum to the unit. -/
def Complete {R : Type*} [Ring R] (groups : List (List Nat)) (ρ : Nat → R) : Prop := ∀ g ∈ groups, (g.map ρ).sum = 1

/-- The numbers in `mm` index moments: `val` of the entry in row `i`, column `j` is `φ (m_i† m_j)`. -/
def Represents {R : Type*} [Ring R] [StarRing R] (mm cols : List (List Nat)) (ρ : Nat → R) (φ : R → ℝ) (val : Nat → ℝ) : Prop :=
  mm.length = cols.length ∧
  ∀ i j, i < cols.length → j < cols.length →
    val ((mm.getD i []).getD j 0) = φ (star (op ρ (cols.getD i [])) * op ρ (cols.getD j []))

/-- A quantum model of an operator list with `N` operators: projectors which commute and are orthogonal where the operator list says so; rank 0 is the zero operator. -/
structure Model {R : Type*} [Ring R] [StarRing R] (N : Nat) (nc om : Nat → Nat → Bool) (ρ : Nat → R) : Prop where
  proj : Verif.Positivity.Projectors ρ
  zero : ρ 0 = 0
  comm : ∀ a b, a < N → b < N → nc a b = false → ρ a * ρ b = ρ b * ρ a
  ortho : ∀ a b, a < N → b < N → om a b = true → ρ a * ρ b = 0

end Verif.Normalization

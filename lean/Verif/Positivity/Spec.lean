import Mathlib.Algebra.Star.Basic
import Mathlib.Algebra.BigOperators.Group.List.Basic
import Mathlib.Data.Real.Basic
import Mathlib.Data.Matrix.Basic
/-
Quantum models: operators in a star ring and positive functionals.
-/
namespace Verif.Positivity

/-- `ρ` sends every operator to a projector. -/
def Projectors {α R : Type*} [Ring R] [StarRing R] (ρ : α → R) : Prop := ∀ a, ρ a * ρ a = ρ a ∧ star (ρ a) = ρ a

/-- A state: a function that is non-negative on squares. -/
def Positive {R : Type*} [Ring R] [StarRing R] (φ : R → ℝ) : Prop := ∀ x, 0 ≤ φ (star x * x)

end Verif.Positivity

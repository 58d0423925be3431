import Verif.State.LpProps
import Mathlib.Algebra.Order.Field.Basic
import Mathlib.Algebra.Order.Ring.Cast
import Mathlib.Data.Rat.Cast.Order
/-!
Truth of what a user tells the program, and feasibility of the problem given to the solver, for values in any ordered field (the entries the user gives are rational).
-/
namespace Verif.EndToEnd
open Verif.Common Verif.Moment Verif.State

variable {K F : Type} [Field F] [LinearOrder F]

/-- The value of a moment: the product of the values of its atoms. -/
def valF (val : Atom → F) (m : Mon) : F := (m.map val).prod

/-- The value of a linear expression. -/
def dictValF {α : Type} (d : Dict α Rat) (y : α → F) : F := (d.map fun t => ((t.2 : Rat) : F) * y t.1).sum

/-- The value of an expression as the user wrote it. -/
def userValF (E : Env K) (d : List (K × Rat)) (y : Mon → F) : F := (d.map fun t => ((t.2 : Rat) : F) * y (E.san t.1)).sum

/-- No product of some of the factors of a moment of the problem lies strictly between 0 and the tolerance 10⁻⁸ of the code. -/
def NoTiny (E : Env K) (val : Atom → F) : Prop :=
  ∀ m ∈ E.monomials, ∀ f, f.Sublist m → |valF val f| ≤ ((1 / 100000000 : Rat) : F) → valF val f = 0

/-- What a call tells the program is true of the values `val` of the atoms. Linearised constraints are only used when no product is tiny; coefficients of extra constraints
that the code drops (at most 10⁻⁸ in absolute value) are zero. -/
def CallTrue (E : Env K) (val : Atom → F) : Call K → Prop
  | .setValues v lpi _ => (∀ t ∈ v, ∀ x, t.2 = some x → valF val (E.san t.1) = ((x : Rat) : F)) ∧ (lpi = true → NoTiny E val)
  | .updateValues v lpi _ => (∀ t ∈ v, ∀ x, t.2 = some x → valF val (E.san t.1) = ((x : Rat) : F)) ∧ (lpi = true → NoTiny E val)
  | .setLower (some l) => ∀ t ∈ l, ((t.2 : Rat) : F) ≤ valF val (E.san t.1)
  | .setUpper (some l) => ∀ t ∈ l, valF val (E.san t.1) ≤ ((t.2 : Rat) : F)
  | .setExtraEq l => ∀ d ∈ l, userValF E d (valF val) = 0 ∧ ∀ t ∈ d, isClose0 t.2 = true → t.2 = 0
  | .setExtraIneq l => ∀ d ∈ l, 0 ≤ userValF E d (valF val) ∧ ∀ t ∈ d, isClose0 t.2 = true → t.2 = 0
  | _ => True

/-- The point `x` satisfies all constraints of the problem given to the solver. -/
structure FeasibleIn (a : Args) (x : Nat → F) : Prop where
  known : ∀ t ∈ a.known, x t.1 = ((t.2 : Rat) : F)
  eqs : ∀ r ∈ a.equalities, dictValF r x = 0
  ineqs : ∀ r ∈ a.inequalities, 0 ≤ dictValF r x
  lower : ∀ t ∈ a.lower, ((t.2 : Rat) : F) ≤ x t.1
  upper : ∀ t ∈ a.upper, x t.1 ≤ ((t.2 : Rat) : F)

end Verif.EndToEnd

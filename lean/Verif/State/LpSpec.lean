import Verif.State.LpModel
/-
Specifications for the state of `InflationLP`, independent of the bookkeeping: values of linear expressions, agreement with a true assignment, feasible points.
-/
namespace Verif.State
open Verif.Common Verif.Moment

variable {K : Type}

/-- The value of a product of atoms. -/
def valM (val : Atom → Rat) (m : Mon) : Rat := (m.map val).prod

/-- The value of a linear expression. -/
def dictVal {α : Type} (d : Dict α Rat) (y : α → Rat) : Rat := (d.map fun t => t.2 * y t.1).sum

/-- The value of a linear expression as the user wrote it: keys are names, symbols, ... standing for moments. -/
def userVal (E : Env K) (d : List (K × Rat)) (y : Mon → Rat) : Rat := (d.map fun t => t.2 * y (E.san t.1)).sum

/-- The last value given to a moment (`NaN`s do not count). -/
def lastValue (E : Env K) (values : List (K × Option Rat)) (m : Mon) : Option Rat :=
  ((values.filter fun t => decide (E.san t.1 = m) && t.2.isSome).getLast?).bind Prod.snd

/-- The feasible points of the problem given to the solver. -/
structure Args.Feasible (a : Args) (x : Nat → Rat) : Prop where
  known : ∀ t ∈ a.known, x t.1 = t.2
  eqs : ∀ r ∈ a.equalities, dictVal r x = 0
  ineqs : ∀ r ∈ a.inequalities, 0 ≤ dictVal r x
  lower : ∀ t ∈ a.lower, t.2 ≤ x t.1
  upper : ∀ t ∈ a.upper, x t.1 ≤ t.2

/-- The values of the variables, read off an assignment of values to moments. -/
def columns (E : Env K) (y : Mon → Rat) (i : Nat) : Rat := y (E.monomials.getD i one)

/-- What the user has asked for: an assignment of values to moments satisfying the recorded values, relations, generated and extra constraints and bounds. -/
structure Satisfies (E : Env K) (s : LpState) (y : Mon → Rat) : Prop where
  known : ∀ m v, s.known.get m = some v → y m = v
  semi : ∀ m c m2, s.semi.get m = some (c, m2) → y m = c * y m2
  minEq : ∀ r ∈ E.minEq, dictVal r (columns E y) = 0
  minIneq : ∀ r ∈ E.minIneq, 0 ≤ dictVal r (columns E y)
  extraEq : ∀ d ∈ s.extraEq, dictVal d y = 0
  extraIneq : ∀ d ∈ s.extraIneq, 0 ≤ dictVal d y
  lower : ∀ m v, s.lower.get m = some v → v ≤ y m
  upper : ∀ m v, s.upper.get m = some v → y m ≤ v

/-- The result `solve` reports for an answer of the solver. -/
def reported (o : SolverOut) (maximize : Bool) : Result :=
  if o.success then .solved o.status (o.primal * (if maximize then 1 else -1)) else .failed o.status

/-- The stored result answers the problem as it is now. -/
def UpToDate (E : Env K) (solver : Args → SolverOut) (s : LpState) : Prop :=
  s.result = .notSolved ∨ ∃ a, solverArgs E s = some a ∧ s.result = reported (solver a) s.maximize

/-- Calls that set extra constraints. -/
def Call.setsExtra : Call K → Bool
  | .setExtraEq _ => true
  | .setExtraIneq _ => true
  | _ => false

/-- Calls, other than setting extra constraints, that change the problem. -/
def Call.changesProblem : Call K → Bool
  | .setValues _ _ _ => true
  | .updateValues v _ _ => !v.isEmpty
  | .setObjective _ _ => true
  | .setLower _ => true
  | .setUpper _ => true
  | .reset _ => true
  | _ => false

/-- The values in a call agree with `val`; `ε` is the tolerated error, at least 10⁻⁸ if linearised constraints are used. -/
def Call.Agrees (E : Env K) (val : Atom → Rat) (ε : Rat) : Call K → Prop
  | .setValues v lpi _ => (∀ t ∈ v, ∀ x, t.2 = some x → valM val (E.san t.1) = x) ∧ (lpi = true → 1 / 10 ^ 8 ≤ ε)
  | .updateValues v lpi _ => (∀ t ∈ v, ∀ x, t.2 = some x → valM val (E.san t.1) = x) ∧ (lpi = true → 1 / 10 ^ 8 ≤ ε)
  | _ => True

/-- The recorded values are true, up to `ε`, and the recorded relations hold. -/
def Truthful (val : Atom → Rat) (ε : Rat) (s : LpState) : Prop :=
  (∀ m v, s.known.get m = some v → |valM val m - v| ≤ ε ∧ (m.length ≤ 1 → valM val m = v)) ∧
  (∀ m c m2, s.semi.get m = some (c, m2) → valM val m = c * valM val m2)

end Verif.State

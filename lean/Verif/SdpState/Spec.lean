import Verif.SdpState.Model
/-
Specifications for the state of `InflationSDP`, independent of the bookkeeping.
-/
namespace Verif.SdpState
open Verif.Common Verif.Moment
open Verif.State (Dict Mon dictVal valM)

variable {K : Type}

/-- The value of a linear expression as the user wrote it. -/
def userVal (E : Env K) (d : List (K × Rat)) (y : Mon → Rat) : Rat := (d.map fun t => t.2 * y (E.san t.1)).sum

/-- Values of the moments, extended to the constant term. -/
def withConst (y : Mon → Rat) : Option Mon → Rat
  | some m => y m
  | none => 1

/-- The points satisfying the linear constraints given to the solver. -/
structure Args.Feasible (a : Args) (x : Option Mon → Rat) : Prop where
  known : ∀ t ∈ a.known, x t.1 = t.2
  semi : ∀ t ∈ a.semi, x (some t.1) = t.2.1 * x (some t.2.2)
  eqs : ∀ r ∈ a.equalities, dictVal r x = 0
  ineqs : ∀ r ∈ a.inequalities, 0 ≤ dictVal r x

/-- An assignment satisfies the recorded values, relations, generated equalities and bounds. -/
structure Satisfies (E : Env K) (s : St) (y : Mon → Rat) : Prop where
  known : ∀ m v, s.known.get m = some v → y m = v
  semi : ∀ m c m2, s.semi.get m = some (c, m2) → y m = c * y m2
  minEq : ∀ d ∈ E.minEq, dictVal d y = 0
  lower : ∀ m v, s.lower.get m = some v → v ≤ y m
  upper : ∀ m v, s.upper.get m = some v → y m ≤ v

/-- The extra constraints hold. -/
def SatisfiesExtra (s : St) (y : Mon → Rat) : Prop := (∀ d ∈ s.extraEq, dictVal d y = 0) ∧ ∀ d ∈ s.extraIneq, 0 ≤ dictVal d y

/-- The result `solve` reports for an answer of the solver. -/
def reported (o : SolverOut) (maximize : Bool) : Result :=
  if o.status = "feasible" then .solved (o.primal * (if maximize then 1 else -1)) else .failed o.status

/-- The stored result answers the problem as it is now. -/
def UpToDate (E : Env K) (solver : Args → SolverOut) (s : St) : Prop :=
  s.result = .notSolved ∨ ∃ a, solverArgs E s = some a ∧ s.result = reported (solver a) s.maximize

/-- No call of the history raises. -/
def Ok (E : Env K) (solver : Args → SolverOut) (h : List (Call K)) : Prop :=
  ∀ h1 c h2, h = h1 ++ c :: h2 → (call E solver (run E solver h1) c).2 = none

/-- The objective given to the solver has the value of the user's objective at every point that agrees with the known values. -/
def ObjectiveFaithful (s : St) : Prop :=
  ∀ y : Mon → Rat, y one = 1 → (∀ m v, s.known.get m = some v → y m = v) → dictVal s.processed y = dictVal s.objective y

/-- The values in a call agree with `val`; `ε` is the tolerated error, at least 10⁻⁸ if linearised constraints are used. -/
def Call.Agrees (E : Env K) (val : Atom → Rat) (ε : Rat) : Call K → Prop
  | .setValues v lpi _ => (∀ t ∈ v, ∀ x, t.2 = some x → valM val (E.san t.1) = x) ∧ (lpi = true → 1 / 10 ^ 8 ≤ ε)
  | .updateValues v lpi _ => (∀ t ∈ v, ∀ x, t.2 = some x → valM val (E.san t.1) = x) ∧ (lpi = true → 1 / 10 ^ 8 ≤ ε)
  | _ => True

/-- The recorded values are true, up to `ε`, and the recorded relations hold. -/
def Truthful (val : Atom → Rat) (ε : Rat) (s : St) : Prop :=
  (∀ m v, s.known.get m = some v → |valM val m - v| ≤ ε ∧ (m.length ≤ 1 → valM val m = v)) ∧
  (∀ m c m2, s.semi.get m = some (c, m2) → valM val m = c * valM val m2)

/-- The call gives a value to the unit moment. -/
def Call.touchesOne (E : Env K) : Call K → Bool
  | .setValues v _ _ => v.any fun t => decide (E.san t.1 = one)
  | .updateValues v _ _ => v.any fun t => decide (E.san t.1 = one)
  | _ => false

end Verif.SdpState

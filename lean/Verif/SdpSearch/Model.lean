import Verif.Search.Model
import Verif.SdpState.Model
/-
Model of `max_within_feasible` on an `InflationSDP`: inflation/optimization_utils.py 24-281, with the program as state. Unlike for an `InflationLP` every call of the program may raise, and what it
leaves behind depends on the calls before (`set_values` deletes the bounds of the moments it makes known and does not restore them).
-/
namespace Verif.SdpSearch
open Verif.Common Verif.Moment Verif.Optimize
open Verif.State (Dict Mon)
open Verif.Search (Expr makeNumerical Options bisectM symbolNames symbolsOf)
open Verif.SdpState

variable {K : Type} {γ : Type}

/-- `program.set_values(evaluated_values, ...)` and `program.solve(feas_as_optim=True, ...)`, optimization_utils.py 160-166 and 245-252. The solver is a function of the arguments: `solve` turns
`feas_as_optim` off when the objective given to the solver has more than one term (InflationSDP.py 784-788), and the objective is one of the arguments. -/
def solvedAt (E : Env K) (solver : Args → SolverOut) (sym : List (K × Expr)) (lpi only : Bool) (v : Rat) (s : St) : Out :=
  andThen (setValues E (makeNumerical sym v) lpi only s) (solve E solver)

/-- The certificate (`none`: reading it raises). -/
def certificateOf (E : Env K) (cert : Args → Option (List γ)) (s : St) : Option (List γ) := (solverArgs E s).bind cert

/-- One evaluation of the program: the objective value and the certificate, or an exception: in `set_values`, in `solve`, or because the objective value is the status, a string. -/
def evaluation (E : Env K) (solver : Args → SolverOut) (cert : Args → Option (List γ)) (sym : List (K × Expr)) (o : Options) (v : Rat) (s : St) : Option (Rat × List γ) × St :=
  let r := solvedAt E solver sym o.lpi o.only v s
  match r.2, r.1.result, certificateOf E cert r.1 with
  | none, .solved x, some c => (some (x, c), r.1)
  | _, _, _ => (none, r.1)

/-- The state of the closure `f`: its cache, the certificates found and the program. -/
structure SState (γ : Type) where
  cache : List (Rat × Rat)
  found : List (Rat × List γ)
  program : St

/-- The closure `f`, optimization_utils.py 158-173; exceptions are not cached. -/
def closure (E : Env K) (solver : Args → SolverOut) (cert : Args → Option (List γ)) (sym : List (K × Expr)) (o : Options) (v : Rat) (st : SState γ) : Option Rat × SState γ :=
  match st.cache.find? (fun t => decide (t.1 = v)) with
  | some t => (some t.2, { st with cache := t :: st.cache.filter fun u => !decide (u.1 = v) })
  | none =>
    match evaluation E solver cert sym o v st.program with
    | (some (x, c), s) =>
      (some (x + o.precision / 2048), ⟨((v, x + o.precision / 2048) :: st.cache).take 2, if c.isEmpty then st.found else st.found ++ [(v, c)], s⟩)
    | (none, s) => (none, { st with program := s })

/-- `_maximize_via_bisect`, optimization_utils.py 97-180: the outcome and the program afterwards. -/
def searchBisect (E : Env K) (solver : Args → SolverOut) (cert : Args → Option (List γ)) (sym : List (K × Expr)) (o : Options) (s : St) : Outcome Rat γ × St :=
  match closure E solver cert sym o o.b1 ⟨[], [], s⟩ with
  | (none, st) => (.raised, st.program)
  | (some r1, st) =>
    if ¬ r1 + o.precision / 2048 < 0 then (.raised, st.program)
    else
      match closure E solver cert sym o o.b0 st with
      | (none, st) => (.raised, st.program)
      | (some r0, st) =>
        if ¬ 0 < r0 + o.precision / 2048 then (.raised, st.program)
        else
          match bisectM (closure E solver cert sym o) o.b0 o.b1 o.xtol o.rtol o.maxiter st with
          | (none, st) => (.raised, st.program)
          | (some x, st) =>
            if o.returnLast then
              match st.found.getLast? with
              | some t => (.withCertificate x t.2, st.program)
              | none => (.raised, st.program)
            else (.value x, st.program)

/-- The loop of `_maximize_via_dual`, optimization_utils.py 243-271: outer `none`: not finished after `fuel` rounds; inner `none`: an exception. The status of the solution is not looked at. -/
def searchLoop (E : Env K) (solver : Args → SolverOut) (cert : Args → Option (List (String × Rat))) (nameOf : K → String) (sym : List (K × Expr)) (minimize : (Rat → Rat) → Rat) (o : Options) :
    Nat → Rat → Option Rat → List (Rat × Rat) → St → Option (Option (Rat × Option Rat × List (Rat × Rat)) × St)
  | 0, _, _, _, _ => none
  | fuel + 1, newUb, oldUb, certs, s =>
    if goesOn o.precision newUb oldUb then
      let r := solvedAt E solver sym o.lpi o.only (newUb + o.precision) s
      match r.2, (certificateOf E cert r.1).bind (certFunction (symbolNames nameOf sym)) with
      | none, some g => searchLoop E solver cert nameOf sym minimize o fuel (minimize g) (some newUb) (certs ++ [(newUb + o.precision, minimize g)]) r.1
      | _, _ => some (none, r.1)
    else some (some (newUb, oldUb, certs), s)

/-- `_maximize_via_dual`, optimization_utils.py 183-281. -/
def searchDual (E : Env K) (solver : Args → SolverOut) (cert : Args → Option (List (String × Rat))) (nameOf : K → String) (sym : List (K × Expr)) (minimize : (Rat → Rat) → Rat) (o : Options) (fuel : Nat)
    (s : St) : Option (Option (Rat × List (Rat × Rat)) × St) :=
  match searchLoop E solver cert nameOf sym minimize o fuel (o.b1 - o.precision) none [] s with
  | none => none
  | some (none, s) => some (none, s)
  | some (some (newUb, oldUb, certs), s) =>
    if 1 < certs.length then
      some (some (match oldUb with | none => newUb | some u => if newUb < u then u else newUb, certs), s)
    else some (none, s)

/-- `max_within_feasible(..., method="bisection")`, optimization_utils.py 72-91: exactly one symbol. -/
def maxBisect (E : Env K) (solver : Args → SolverOut) (cert : Args → Option (List γ)) (sym : List (K × Expr)) (o : Options) (s : St) : Outcome Rat γ × St :=
  if (symbolsOf sym).length = 1 then searchBisect E solver cert sym o s else (.raised, s)

/-- `max_within_feasible(..., method="dual")`. -/
def maxDual (E : Env K) (solver : Args → SolverOut) (cert : Args → Option (List (String × Rat))) (nameOf : K → String) (sym : List (K × Expr)) (minimize : (Rat → Rat) → Rat) (o : Options) (fuel : Nat)
    (s : St) : Option (Option (Rat × List (Rat × Rat)) × St) :=
  if (symbolsOf sym).length = 1 then searchDual E solver cert nameOf sym minimize o fuel s else some (none, s)

end Verif.SdpSearch

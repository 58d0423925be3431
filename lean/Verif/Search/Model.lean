import Verif.Optimize.Model
import Verif.State.LpModel
/-
Model of `max_within_feasible` on an `InflationLP`: inflation/optimization_utils.py 24-281 and inflation/utils.py 224-247, with the program as state. (`Verif.Optimize` models the two
searches for a program given as a function of the parameter.)
-/
namespace Verif.Search
open Verif.Moment Verif.State Verif.Optimize

variable {K : Type}

/-- A value of the dictionary `symbolic_values`: an expression, by the symbols in it and its value as a function of the parameter. A number has no symbols. SymPy itself is not modelled. -/
structure Expr where
  symbols : List String
  value : Rat → Rat

/-- `make_numerical(symbolic_values, {param: value})`, utils.py 224-247. -/
def makeNumerical (sym : List (K × Expr)) (v : Rat) : List (K × Option Rat) := sym.map fun t => (t.1, some (t.2.value v))

/-- The program while it is searched: `set_values` with the values of the symbolic expressions at `v` and `solve(feas_as_optim=True, ...)`, optimization_utils.py 160-166 and 245-252. The solver is
a function of the matrices (with the relaxation and the form of the problem fixed). -/
def solvedAt (E : Env K) (solver : Args → SolverOut) (sym : List (K × Expr)) (lpi only : Bool) (v : Rat) (s : LpState) : LpState :=
  solve E solver (setValues E (makeNumerical sym v) lpi only s)

/-- `program.objective_value + precision/2048`: a number after a successful call of the solver; `none`: preparing the matrices raised, or the objective value is the status, a string, and the sum
raises `TypeError`. -/
def objectiveOf (s : LpState) : Option Rat :=
  match s.result with
  | .solved _ x => some x
  | _ => none

/-- The certificate (`none`: preparing the matrices, the call of the solver or reading the certificate raises). -/
def certificateOf {γ : Type} (E : Env K) (cert : Args → Option (List γ)) (s : LpState) : Option (List γ) := (solverArgs E s).bind cert

/-! ### Bisection -/

/-- The loop of `bisect.c` (see `Verif.Optimize.bisectLoop`) for a function that may raise. -/
def bisectLoopM {σ : Type} (f : Rat → σ → Option Rat × σ) (xtol rtol : Rat) (s : Bool) : Nat → Rat → Rat → σ → Option Rat × σ
  | 0, _, _, st => (none, st)
  | k + 1, xa, dm, st =>
    let dm := dm / 2
    let xm := xa + dm
    match f xm st with
    | (none, st) => (none, st)
    | (some r, st) =>
      let xa := if decide (0 < r) = s then xm else xa
      if r = 0 ∨ |dm| < xtol + rtol * |xm| then (some xm, st)
      else bisectLoopM f xtol rtol s k xa dm st

/-- `scipy.optimize.bisect` for a function that may raise. -/
def bisectM {σ : Type} (f : Rat → σ → Option Rat × σ) (a b xtol rtol : Rat) (maxiter : Nat) (st : σ) : Option Rat × σ :=
  match f a st with
  | (none, st) => (none, st)
  | (some ra, st) =>
    match f b st with
    | (none, st) => (none, st)
    | (some rb, st) =>
      if ra = 0 then (some a, st)
      else if rb = 0 then (some b, st)
      else if decide (0 < ra) = decide (0 < rb) then (none, st)
      else bisectLoopM f xtol rtol (decide (0 < ra)) maxiter a (b - a) st

/-- The state of the closure `f`: its cache, the certificates found and the program. -/
structure SState (γ : Type) where
  cache : List (Rat × Rat)
  found : List (Rat × List γ)
  program : LpState

/-- The options of the search (optimization_utils.py 135-156, 223-231). -/
structure Options where
  b0 : Rat
  b1 : Rat
  precision : Rat
  xtol : Rat
  rtol : Rat
  maxiter : Nat
  lpi : Bool
  only : Bool
  returnLast : Bool

/-- The closure `f`, optimization_utils.py 158-173; exceptions are not cached. -/
def closure {γ : Type} (E : Env K) (solver : Args → SolverOut) (cert : Args → Option (List γ)) (sym : List (K × Expr)) (o : Options) (v : Rat) (st : SState γ) : Option Rat × SState γ :=
  match st.cache.find? (fun t => decide (t.1 = v)) with
  | some t => (some t.2, { st with cache := t :: st.cache.filter fun u => !decide (u.1 = v) })
  | none =>
    let s := solvedAt E solver sym o.lpi o.only v st.program
    match objectiveOf s, certificateOf E cert s with
    | some x, some c =>
      (some (x + o.precision / 2048),
        ⟨((v, x + o.precision / 2048) :: st.cache).take 2, if c.isEmpty then st.found else st.found ++ [(v, c)], s⟩)
    | _, _ => (none, { st with program := s })

/-- `_maximize_via_bisect`, optimization_utils.py 97-180: the outcome and the program afterwards. -/
def searchBisect {γ : Type} (E : Env K) (solver : Args → SolverOut) (cert : Args → Option (List γ)) (sym : List (K × Expr)) (o : Options) (s : LpState) : Outcome Rat γ × LpState :=
  match closure E solver cert sym o o.b1 ⟨[], [], s⟩ with
  | (none, st) => (.raised, st.program)
  | (some r1, st) =>
    if ¬ r1 + o.precision / 2048 < 0 then (.raised, st.program)
    else
      match closure E solver cert sym o o.b0 st with
      | (none, st) => (.raised, st.program)
      | (some r0, st) =>
        if ¬ 0 < r0 + o.precision / 2048 then (.raised, st.program)
        else
          match bisectM (closure E solver cert sym o) o.b0 o.b1 o.xtol o.rtol o.maxiter st with
          | (none, st) => (.raised, st.program)
          | (some x, st) =>
            if o.returnLast then
              match st.found.getLast? with
              | some t => (.withCertificate x t.2, st.program)
              | none => (.raised, st.program)
            else (.value x, st.program)

/-! ### Certificates -/

/-- `symbol_names`, optimization_utils.py 232: the last of several keys with the same name wins. -/
def symbolNames (nameOf : K → String) (sym : List (K × Expr)) : String → Option (Rat → Rat) :=
  fun n => (sym.foldl (fun d t => Dict.set d (nameOf t.1) t.2.value) ([] : Dict String (Rat → Rat))).get n

/-- The loop, optimization_utils.py 243-271, as `Verif.Optimize.dualLoop`, with the program as state. -/
def searchLoop (E : Env K) (solver : Args → SolverOut) (cert : Args → Option (List (String × Rat))) (nameOf : K → String) (sym : List (K × Expr)) (minimize : (Rat → Rat) → Rat) (o : Options) :
    Nat → Rat → Option Rat → List (Rat × Rat) → LpState → Option (Option (Rat × Option Rat × List (Rat × Rat)) × LpState)
  | 0, _, _, _, _ => none
  | fuel + 1, newUb, oldUb, certs, s =>
    if goesOn o.precision newUb oldUb then
      let s := solvedAt E solver sym o.lpi o.only (newUb + o.precision) s
      match (certificateOf E cert s).bind (certFunction (symbolNames nameOf sym)) with
      | none => some (none, s)
      | some g => searchLoop E solver cert nameOf sym minimize o fuel (minimize g) (some newUb) (certs ++ [(newUb + o.precision, minimize g)]) s
    else some (some (newUb, oldUb, certs), s)

/-- `_maximize_via_dual`, optimization_utils.py 183-281: outer `none`: not finished after `fuel` rounds; inner `none`: an exception. -/
def searchDual (E : Env K) (solver : Args → SolverOut) (cert : Args → Option (List (String × Rat))) (nameOf : K → String) (sym : List (K × Expr)) (minimize : (Rat → Rat) → Rat) (o : Options) (fuel : Nat)
    (s : LpState) : Option (Option (Rat × List (Rat × Rat)) × LpState) :=
  match searchLoop E solver cert nameOf sym minimize o fuel (o.b1 - o.precision) none [] s with
  | none => none
  | some (none, s) => some (none, s)
  | some (some (newUb, oldUb, certs), s) =>
    if 1 < certs.length then
      some (some (match oldUb with | none => newUb | some u => if newUb < u then u else newUb, certs), s)
    else some (none, s)

/-! ### The entry point -/

/-- The set of symbols, optimization_utils.py 74-77. -/
def symbolsOf (sym : List (K × Expr)) : List String := (sym.flatMap fun t => t.2.symbols).eraseDups

/-- `max_within_feasible(..., method="bisection")`, optimization_utils.py 72-91: exactly one symbol. -/
def maxBisect {γ : Type} (E : Env K) (solver : Args → SolverOut) (cert : Args → Option (List γ)) (sym : List (K × Expr)) (o : Options) (s : LpState) : Outcome Rat γ × LpState :=
  if (symbolsOf sym).length = 1 then searchBisect E solver cert sym o s else (.raised, s)

/-- `max_within_feasible(..., method="dual")`. -/
def maxDual (E : Env K) (solver : Args → SolverOut) (cert : Args → Option (List (String × Rat))) (nameOf : K → String) (sym : List (K × Expr)) (minimize : (Rat → Rat) → Rat) (o : Options) (fuel : Nat)
    (s : LpState) : Option (Option (Rat × List (Rat × Rat)) × LpState) :=
  if (symbolsOf sym).length = 1 then searchDual E solver cert nameOf sym minimize o fuel s else some (none, s)

end Verif.Search

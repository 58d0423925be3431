import Mathlib.Algebra.Order.Field.Basic
import Mathlib.Tactic.Linarith
import Mathlib.Tactic.Ring
import Mathlib.Tactic.FieldSimp
import Mathlib.Tactic.Positivity
import Mathlib.Tactic.NormNum

/-!
# Model of `inflation/optimization_utils.py`

Numbers are elements of an arbitrary ordered field.  Not modelled: SymPy's substitution (symbolic values
are functions of the parameter), the program itself (an oracle giving, for each value of the parameter,
the objective value and the certificate), and SciPy's SLSQP (an arbitrary function, see the theorems
for what is assumed of it).  `scipy.optimize.bisect` is not part of the repository; it is modelled after
its C source (`scipy/optimize/Zeros/bisect.c`).
-/

namespace Verif.Optimize

variable {K : Type} [Field K] [LinearOrder K]

/-! ### SciPy's bisection -/

/-- The loop of `bisect.c`: `k` iterations are left, `s` is the sign of the function at the left end
(`true`: positive), `xa` the left end, `dm` the width of the interval.  `none` is the `RuntimeError` raised
after the last iteration.  The function may change a state `σ` (here: caches and lists). -/
def bisectLoop {σ : Type} (f : K → σ → K × σ) (xtol rtol : K) (s : Bool) : Nat → K → K → σ → Option K × σ
  | 0, _, _, st => (none, st)
  | k + 1, xa, dm, st =>
    let dm := dm / 2
    let xm := xa + dm
    let r := f xm st
    let xa := if decide (0 < r.1) = s then xm else xa
    if r.1 = 0 ∨ |dm| < xtol + rtol * |xm| then (some xm, r.2)
    else bisectLoop f xtol rtol s k xa dm r.2

/-- `scipy.optimize.bisect(f, a, b, xtol, rtol, maxiter)`: both ends are evaluated first; a root at an end
is returned; equal signs raise `ValueError` (`none`). -/
def bisect {σ : Type} (f : K → σ → K × σ) (a b xtol rtol : K) (maxiter : Nat) (st : σ) : Option K × σ :=
  let ra := f a st
  let rb := f b ra.2
  if ra.1 = 0 then (some a, rb.2)
  else if rb.1 = 0 then (some b, rb.2)
  else if decide (0 < ra.1) = decide (0 < rb.1) then (none, rb.2)
  else bisectLoop f xtol rtol (decide (0 < ra.1)) maxiter a (b - a) rb.2

/-! ### `_maximize_via_bisect` -/

/-- What the program answers at a value of the parameter (optimization_utils.py 158-173):
`objective_value` and `certificate_as_dict()`. -/
structure Oracle (K γ : Type) where
  objective : K → K
  certificate : K → List γ

/-- The state of the closure `f`: the last two distinct calls (`lru_cache(maxsize=2)`, most recent first)
and `discovered_certificates`. -/
structure BState (K γ : Type) where
  cache : List (K × K)
  found : List (K × List γ)

/-- The body of `f` without the cache (optimization_utils.py 159-173): certificates without coefficients are
not recorded. -/
def evalF {γ : Type} (O : Oracle K γ) (precision : K) (v : K) (st : BState K γ) : K × BState K γ :=
  (O.objective v + precision / 2048,
   { st with found := if (O.certificate v).isEmpty then st.found else st.found ++ [(v, O.certificate v)] })

/-- The decorated `f` (optimization_utils.py 158): a hit moves the entry to the front, a miss evaluates and
drops the least recently used entry when there are more than two. -/
def cachedF {γ : Type} (O : Oracle K γ) (precision : K) (v : K) (st : BState K γ) : K × BState K γ :=
  match st.cache.find? (fun t => decide (t.1 = v)) with
  | some t => (t.2, { st with cache := t :: st.cache.filter fun u => !decide (u.1 = v) })
  | none =>
    let r := evalF O precision v st
    (r.1, { r.2 with cache := ((v, r.1) :: r.2.cache).take 2 })

/-- Outcome of the search: the critical value, and the last certificate when it was asked for. -/
inductive Outcome (K γ : Type)
  | raised
  | value (x : K)
  | withCertificate (x : K) (cert : List γ)

/-- `_maximize_via_bisect` (optimization_utils.py 97-180), with `bounds = [b0, b1]`.  The messages of the
assertions are only computed when they fail. -/
def maximizeViaBisect {γ : Type} (O : Oracle K γ) (b0 b1 precision xtol rtol : K) (maxiter : Nat)
    (returnLast : Bool) : Outcome K γ :=
  let r1 := cachedF O precision b1 ⟨[], []⟩
  if ¬ r1.1 + precision / 2048 < 0 then .raised
  else
    let r0 := cachedF O precision b0 r1.2
    if ¬ 0 < r0.1 + precision / 2048 then .raised
    else
      match bisect (cachedF O precision) b0 b1 xtol rtol maxiter r0.2 with
      | (none, _) => .raised
      | (some x, st) =>
        if returnLast then
          match st.found.getLast? with
          | some t => .withCertificate x t.2
          | none => .raised
        else .value x

/-! ### `_maximize_via_dual` -/

/-- `sum(symbol_names[var] * coeff for var, coeff in dual_certificate.items())` as a function of the parameter
(optimization_utils.py 255-257): a variable without symbolic value raises `KeyError` (`none`). -/
def certFunction (symbolic : String → Option (K → K)) : List (String × K) → Option (K → K)
  | [] => some fun _ => 0
  | (n, c) :: d =>
    match symbolic n, certFunction symbolic d with
    | some g, some h => some fun p => g p * c + h p
    | _, _ => none

/-- The condition `new_ub + precision < old_ub` of the loop (optimization_utils.py 243); `none` is infinity. -/
def goesOn (precision newUb : K) : Option K → Bool
  | none => true
  | some o => decide (newUb + precision < o)

/-- The loop (optimization_utils.py 239-271).  `oldUb = none` is infinity.  `fuel` bounds the number of
iterations (`none` in the first component: not finished); see `C38_terminates`.  `certs` collects the new
bounds with the parameter at which the program was solved.  Result: `some (newUb, oldUb, certs)`. -/
def dualLoop (symbolic : String → Option (K → K)) (certificate : K → List (String × K))
    (minimize : (K → K) → K) (precision : K) : Nat → K → Option K → List (K × K) → Option (Option (K × Option K × List (K × K)))
  | 0, _, _, _ => none
  | fuel + 1, newUb, oldUb, certs =>
    if goesOn precision newUb oldUb then
      match certFunction symbolic (certificate (newUb + precision)) with
      | none => some none
      | some g => dualLoop symbolic certificate minimize precision fuel (minimize g) (some newUb) (certs ++ [(newUb + precision, minimize g)])
    else some (some (newUb, oldUb, certs))

/-- `_maximize_via_dual` (optimization_utils.py 183-281).  Outer `none`: out of fuel; inner `none`: an
exception (missing symbol, or fewer than two certificates).  Otherwise the value `max(new_ub, old_ub)` and
the list of (parameter solved, new bound). -/
def maximizeViaDual (symbolic : String → Option (K → K)) (certificate : K → List (String × K))
    (minimize : (K → K) → K) (b1 precision : K) (fuel : Nat) : Option (Option (K × List (K × K))) :=
  match dualLoop symbolic certificate minimize precision fuel (b1 - precision) none [] with
  | none => none
  | some none => some none
  | some (some (newUb, oldUb, certs)) =>
    if 1 < certs.length then
      some (some (match oldUb with | none => newUb | some o => if newUb < o then o else newUb, certs))
    else some none

end Verif.Optimize

import Mathlib.Algebra.Order.Floor.Ring
import Mathlib.Algebra.Order.Field.Basic
import Mathlib.Algebra.Order.Field.Power
import Mathlib.Tactic.Linarith
import Mathlib.Tactic.Positivity
import Mathlib.Tactic.FieldSimp
import Mathlib.Tactic.Ring

/-!
# Model of `clean_coefficients`

`inflation/utils.py` 58-91.  Numbers are elements of an arbitrary ordered field with a floor
function, so the model is exact: binary floating point is not modelled.
-/

namespace Verif.Certificates

variable {α : Type} {K : Type} [Field K] [LinearOrder K] [FloorRing K]

/-- `numpy.rint` (used by `np.round`, utils.py 90): nearest integer, halves to the even one. -/
def rint (x : K) : Int :=
  if x - (⌊x⌋ : K) < 1 / 2 then ⌊x⌋
  else if 1 / 2 < x - (⌊x⌋ : K) then ⌊x⌋ + 1
  else if ⌊x⌋ % 2 = 0 then ⌊x⌋ else ⌊x⌋ + 1

/-- `np.round(x, decimals=d)` (utils.py 90): scale, round to an integer, scale back.  Negative
numbers of decimals are allowed, as in numpy. -/
def roundDec (d : Int) (x : K) : K := (rint (x * (10 : K) ^ d) : K) / (10 : K) ^ d

/-- `np.abs` on scalars. -/
def absK (x : K) : K := if x < 0 then -x else x

/-- `np.min` of an array; raises `ValueError` (`none`) when it is empty (utils.py 83). -/
def npMin : List K → Option K
  | [] => none
  | x :: xs => some (xs.foldl (fun a b => if b < a then b else a) x)

/-- `np.max` of an array; raises `ValueError` (`none`) when it is empty (utils.py 86). -/
def npMax : List K → Option K
  | [] => none
  | x :: xs => some (xs.foldl (fun a b => if a < b then b else a) x)

/-- The normalising factor (utils.py 80-86): the smallest (largest, if the tolerance is zero)
absolute value among those above the tolerance. -/
def normalisingFactor (tol : K) (coeffs : List K) : Option K :=
  let above := (coeffs.filter (fun c => decide (tol < absK c))).map absK
  if 0 < tol then npMin above else npMax above

/-- `clean_coefficients(cert, chop_tol, round_decimals)` (utils.py 58-91).  A dictionary is its list
of items in insertion order; `none` is the `ValueError` of `np.min`/`np.max` on an empty array. -/
def cleanCoefficients (cert : List (α × K)) (chopTol : K) (decimals : Int) :
    Option (List (α × K)) :=
  match cert with
  | [] => some []
  | cert =>
    let tol := absK chopTol
    match normalisingFactor tol (cert.map Prod.snd) with
    | none => none
    | some s =>
      some (cert.map fun kc =>
        let c := kc.2 / s
        let c := if absK c ≤ tol then 0 else c
        (kc.1, roundDec decimals c))

end Verif.Certificates

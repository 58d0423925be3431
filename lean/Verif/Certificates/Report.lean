import Verif.Certificates.CleanLemmas

/-!
# Model of the routines that report certificates

`InflationLP.certificate_as_dict`, `string_from_dict`, `evaluate_polynomial`, `evaluate_certificate`
(lp/InflationLP.py 630-865) and the same methods of `InflationSDP` (sdp/InflationSDP.py 836-1075).
SymPy output (`probs_from_dict`) is not modelled.
-/

namespace Verif.Certificates

variable {κ : Type} [DecidableEq κ] {K : Type} [Field K] [LinearOrder K] [FloorRing K]

/-- A moment object (`CompoundMoment`, lp/monomial_classes.py 210-330).  `key` is what `__hash__` and
`__eq__` look at (`signature`, `as_counter`); the name is an independent attribute: the object
`Constant_Term` is a copy of `One` with another name (lp/InflationLP.py 1249-1251,
sdp/InflationSDP.py 302-304). -/
structure MonObj (κ : Type) where
  key : κ
  name : String
  isZero : Bool

/-- `d[k] = f(d[k])` for a Python dictionary keyed by moment objects, with `d[k]` starting from `v0`
when absent: the first key object is kept, positions do not change. -/
def upsert (f : K → K) (v0 : K) (k : MonObj κ) : List (MonObj κ × K) → List (MonObj κ × K)
  | [] => [(k, f v0)]
  | (k', v) :: d => if k'.key = k.key then (k', f v) :: d else (k', v) :: upsert f v0 k d

/-- `np.isclose(v, 0)`: absolute tolerance `1e-8`. -/
def close0 (v : K) : Bool := decide (absK v ≤ 1 / 10 ^ 8)

/-- `np.isclose(v, 1)`: absolute tolerance `1e-8` plus relative tolerance `1e-5`. -/
def close1 (v : K) : Bool := decide (absK (v - 1) ≤ 1 / 10 ^ 8 + 1 / 10 ^ 5)

/-- `certificate_as_dict` (LP 630-681, SDP 836-885).  `lookup` is `monomial_from_name`; `none` is an
exception (unknown name, or failure of `clean_coefficients`).  `dual` is the solver's
`"dual_certificate"`. -/
def certificateAsDict (lookup : String → Option (MonObj κ)) (dual : List (String × K)) (clean : Bool)
    (tol : K) (decimals : Int) : Option (List (MonObj κ × K)) :=
  if dual.all (fun t => close0 t.2) then some []
  else
    (if clean then cleanCoefficients dual tol decimals else some dual).bind fun dual =>
      (dual.mapM fun t => (lookup t.1).map fun m => (m, t.2)).map fun items =>
        (items.filter fun t => !t.1.isZero).foldl (fun d t => upsert (fun _ => t.2) 0 t.1 d) []

/-- `_sanitise_dict` on a dictionary keyed by moment objects (SDP 1587-1591, LP 1110-1130): entries
close to zero are dropped, the others are accumulated. -/
def sanitise (d : List (MonObj κ × K)) : List (MonObj κ × K) :=
  (d.filter fun t => !close0 t.2).foldl (fun d t => upsert (fun v => v + t.2) 0 t.1 d) []

/-- `evaluate_polynomial` (LP 812-838, SDP 1018-1045): `val k` is what `compute_marginal` returns for
the moment; moments that are zero give `0.`. -/
def evaluatePolynomial (d : List (MonObj κ × K)) (val : κ → K) : K :=
  ((sanitise d).map fun t => (if t.1.isZero then 0 else val t.1.key) * t.2).sum

/-- `evaluate_certificate` (LP 841-866, SDP 1047-1073), with the default options of
`certificate_as_dict`: `clean=True`, `chop_tol=1e-10`, `round_decimals=3`. -/
def evaluateCertificate (lookup : String → Option (MonObj κ)) (dual : List (String × K))
    (val : κ → K) : Option K :=
  (certificateAsDict lookup dual true (1 / 10 ^ 10) 3).map fun d => evaluatePolynomial d val

/-- One printed term: its sign, the printed absolute value of the coefficient (`none` when only the
name is printed) and the moment. -/
structure Term (κ K : Type) where
  plus : Bool
  coeff : Option K
  mon : MonObj κ

/-- The parts of the printed string (LP 745-777, SDP 940-975): the constant, if it is printed, and
the terms.  `one` is the key shared by `One` and `Constant_Term`; `as_dict.pop(Constant_Term,
as_dict.pop(One, 0.))` removes that one entry. -/
def stringParts (one : κ) (d : List (MonObj κ × K)) : Option K × List (Term κ K) :=
  let d := sanitise d
  let const := match d.find? (fun t => decide (t.1.key = one)) with
    | some t => t.2
    | none => 0
  let rest := d.filter fun t => !decide (t.1.key = one)
  (if const = 0 then none else some const,
   (rest.filter fun t => !(t.1.isZero || close0 (absK t.2))).map fun t =>
     ⟨decide (0 ≤ t.2), if close1 (absK t.2) then none else some (absK t.2), t.1⟩)

/-- The text of a term (LP 766-771, SDP 967-972); `fmt` is Python's formatting of a number. -/
def Term.text (fmt : K → String) (t : Term κ K) : String :=
  (if t.plus then "+" else "-") ++
    match t.coeff with
    | none => t.mon.name
    | some c => fmt c ++ "*" ++ t.mon.name

/-- The text before the last step. -/
def rawText (fmt : K → String) (p : Option K × List (Term κ K)) : String :=
  (match p.1 with | some c => fmt c | none => "") ++ String.join (p.2.map (Term.text fmt))

/-- `InflationLP.string_from_dict` (LP 740-777): `"0"` for the empty text, a leading `+` is removed. -/
def stringFromDictLP (fmt : K → String) (one : κ) (d : List (MonObj κ × K)) : String :=
  match (rawText fmt (stringParts one d)).toList with
  | [] => "0"
  | '+' :: cs => String.ofList cs
  | cs => String.ofList cs

/-- `InflationSDP.string_from_dict` (SDP 940-975): `polynomial_as_str[0]` raises `IndexError` (`none`)
on the empty text. -/
def stringFromDictSDP (fmt : K → String) (one : κ) (d : List (MonObj κ × K)) : Option String :=
  match (rawText fmt (stringParts one d)).toList with
  | [] => none
  | '+' :: cs => some (String.ofList cs)
  | cs => some (String.ofList cs)

end Verif.Certificates

import Verif.Common.Sort
import Verif.Common.Text
import Verif.MomentMatrix.Model
import Mathlib.Data.Rat.Defs
import Mathlib.Algebra.Order.Ring.Rat
import Mathlib.Algebra.Order.Group.Unbundled.Abs
/-
Model of `CompoundMoment` (lp/monomial_classes.py 225-440), of `name_from_atom_names` (sdp/monomial_utils.py 59-83) and of the SDP version
(sdp/monomial_classes.py 106-150). An atomic moment is its list of operator ranks (`as_lexmon`); two atoms are equal when their signatures are equal (the code
compares the hashes of the signatures; hash collisions are not modelled). Floats are exact rationals.
-/
namespace Verif.Moment
open Verif.Common Verif.MomentMatrix

abbrev Atom := List Nat

/-- `InternalAtomicMonomial.__lt__` and equality: signatures `(n_operators, lexmon)` compared as tuples, lp/monomial_classes.py 69-70, 125-129. -/
def atomLe (a b : Atom) : Bool := decide (a.length < b.length) || (a.length == b.length && lexLe a b)

/-- `collections.Counter`: elements in order of first occurrence with their multiplicity. -/
def counter {α} [BEq α] (l : List α) : List (α × Nat) := (dedupB l).map fun a => (a, l.count a)

/-- `Counter.elements()`. -/
def elements {α} (c : List (α × Nat)) : List α := c.flatMap fun t => List.replicate t.2 t.1

/-- What the constructor is told about atoms: `is_knowable`, `is_do_conditional`, `is_zero`, `name`. -/
structure AtomInfo where
  knowable : Atom → Bool
  doConditional : Atom → Bool
  zero : Atom → Bool
  name : Atom → String

inductive Status
  | knowable
  | semi
  | unknowable
deriving DecidableEq, Repr

/-- `name_from_atom_names`, monomial_utils.py 59-83, on lists of characters. -/
def joinChars (names : List Text.Str) : Text.Str :=
  if names.isEmpty then ['1']
  else ['*'].intercalate ((counter names).map fun t => if t.2 > 1 then t.1 ++ '^' :: Text.natStr t.2 else t.1)

/-- `name_from_atom_names`, monomial_utils.py 59-83. -/
def joinNames (names : List String) : String := String.ofList (joinChars (names.map String.toList))

/-- The attributes of a `CompoundMoment`. -/
structure Compound where
  factors : List Atom
  nOperators : Nat
  isAtomic : Bool
  isDoConditional : Bool
  isKnowable : Bool
  lexmon : List Nat
  counter : List (Atom × Nat)
  knowableFactors : List Atom
  unknowableFactors : List Atom
  status : Status
  isOne : Bool
  isZero : Bool
  name : String
deriving DecidableEq

/-- `CompoundMoment.__init__`, lp/monomial_classes.py 248-306. -/
def compound (I : AtomInfo) (monomials : List Atom) : Compound :=
  let factors := sortBy atomLe monomials
  let c := counter factors
  let kf := elements (c.filter fun t => I.knowable t.1)
  let uf := elements (c.filter fun t => !(I.knowable t.1))
  { factors := factors
    nOperators := (factors.map List.length).sum
    isAtomic := decide (factors.length ≤ 1)
    isDoConditional := factors.all I.doConditional
    isKnowable := factors.all I.knowable
    lexmon := factors.flatten
    counter := c
    knowableFactors := kf
    unknowableFactors := uf
    status := if uf.length = 0 then .knowable else if uf.length = factors.length then .unknowable else .semi
    isOne := factors.all (fun f => f.isEmpty) || decide (factors.length = 0)
    isZero := factors.any I.zero
    name := joinNames (factors.map I.name) }

/-- Equality of dictionaries `Counter == Counter` (missing keys count 0). -/
def counterEq (c d : List (Atom × Nat)) : Bool :=
  c.all (fun t => decide ((d.lookup t.1).getD 0 = t.2)) && d.all (fun t => decide ((c.lookup t.1).getD 0 = t.2))

/-- `CompoundMoment.__eq__`, lp/monomial_classes.py 308-317. -/
def Compound.eq (a b : Compound) : Bool := counterEq a.counter b.counter

/-- Order of Python tuples of atoms. -/
def tupleLe : List Atom → List Atom → Bool
  | [], _ => true
  | _ :: _, [] => false
  | a :: s, b :: t => if a = b then tupleLe s t else atomLe a b

/-- `CompoundMomentSDP.__init__`, sdp/monomial_classes.py 107-127: `dagger` is the adjoint of an atom. -/
def compoundSDP (I : AtomInfo) (dagger : Atom → Atom) (monomials : List Atom) : Compound :=
  let d := sortBy atomLe monomials
  let c := sortBy atomLe (monomials.map dagger)
  compound I (if tupleLe d c then d else c)

inductive Known
  | known
  | semi
  | unknown
deriving DecidableEq, Repr

/-- `np.isclose(v, 0)`. -/
def isClose0 (v : Rat) : Bool := decide (|v| ≤ 1 / 100000000)

/-- One step of the loop of `evaluate`, lp/monomial_classes.py 393-397. -/
def evalStep (known : Atom → Option Rat) (st : Rat × List (Atom × Nat)) (t : Atom × Nat) : Rat × List (Atom × Nat) :=
  match known t.1 with
  | some v => (st.1 * v ^ t.2, st.2)
  | none => (st.1, st.2 ++ [t])

/-- `CompoundMoment.evaluate`, lp/monomial_classes.py 366-412. -/
def evaluate (m : Compound) (known : Atom → Option Rat) (lpi : Bool) : Rat × List Atom × Known :=
  let st := m.counter.foldl (evalStep known) (1, [])
  let rest := elements st.2
  let status :=
    if rest.length = 0 then .known
    else if rest.length = m.factors.length || !lpi then .unknown
    else if isClose0 st.1 then .known else .semi
  (st.1, rest, status)

end Verif.Moment

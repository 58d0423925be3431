import Verif.Writers.LpModel
import Mathlib.Algebra.BigOperators.Group.List.Basic
/-
Specification side of the exports: what a linear program is, and how the row section and the bound section of an LP file are read. Independent of how the writer works.
-/
namespace Verif.Writers

open Verif.Text Verif.State

variable {V K : Type}

/-- The value of a linear expression at an assignment. -/
def lin [Field K] {X : Type} (d : Dict X K) (w : X → K) : K := (d.map fun t => t.2 * w t.1).sum

/-- The assignment has the known values. -/
def MeetsKnown (a : WArgs V K) (w : V → K) : Prop := ∀ t ∈ a.known, w t.1 = t.2

/-- The constraints of the problem, restricted to those selected by their set of variables: equalities are `= 0`, inequalities `≥ 0`, and a semi-known variable is a multiple of another one. -/
def MeetsConstraints [Field K] [LinearOrder K] (sel : List V → Prop) (a : WArgs V K) (w : V → K) : Prop :=
  (∀ d ∈ a.equalities, sel d.keys → lin d w = 0)
  ∧ (∀ t ∈ a.semiknown, sel [t.1, t.2.2] → w t.1 = t.2.1 * w t.2.2)
  ∧ ∀ d ∈ a.inequalities, sel d.keys → 0 ≤ lin d w

/-- The bounds of the problem. -/
def MeetsBounds [LinearOrder K] (a : WArgs V K) (w : V → K) : Prop :=
  (∀ t ∈ a.lower, t.2 ≤ w t.1) ∧ ∀ t ∈ a.upper, w t.1 ≤ t.2

/-- Some variable of the list has no known value. -/
def HasUnknown (a : WArgs V K) (xs : List V) : Prop := ∃ x ∈ xs, x ∉ Dict.keys a.known

/-- The arguments are Python dictionaries (no key twice), and no variable is declared semi-known in terms of itself. -/
structure WellFormed (a : WArgs V K) : Prop where
  eqs : ∀ d ∈ a.equalities, (Dict.keys d).Nodup
  ineqs : ∀ d ∈ a.inequalities, (Dict.keys d).Nodup
  known : (Dict.keys a.known).Nodup
  objective : (Dict.keys a.objective).Nodup
  lower : (Dict.keys a.lower).Nodup
  upper : (Dict.keys a.upper).Nodup
  semi : ∀ t ∈ a.semiknown, t.1 ≠ t.2.2

/-- A printed number has no blank and no line end in it, is not empty, and reading it gives the number back. -/
structure Faithful (fmt : K → Str) (num : Str → Option K) : Prop where
  read : ∀ q, num (fmt q) = some q
  noSpace : ∀ q, ' ' ∉ fmt q
  noNewline : ∀ q, '\n' ∉ fmt q

/-- One row of a linear program. -/
structure Row (K : Type) where
  terms : List (K × Nat)
  isEq : Bool
  rhs : K

def Row.holds [Field K] [LinearOrder K] (r : Row K) (v : Nat → K) : Prop :=
  if r.isEq then (r.terms.map fun t => t.1 * v t.2).sum = r.rhs else r.rhs ≤ (r.terms.map fun t => t.1 * v t.2).sum

/-- Read `x17`. -/
def readVar : Str → Option Nat
  | 'x' :: s => readNat s
  | _ => none

/-- Read `c x + c x + ... = b` or `... >= b` from its words. -/
def readTerms (num : Str → Option K) : List Str → Option (Row K)
  | c :: x :: op :: rest =>
    if op = "+".toList then
      (num c).bind fun c => (readVar x).bind fun x => (readTerms num rest).map fun r => { r with terms := (c, x) :: r.terms }
    else match rest with
      | [b] =>
        if op = "=".toList then (num c).bind fun c => (readVar x).bind fun x => (num b).map fun b => ⟨[(c, x)], true, b⟩
        else if op = ">=".toList then (num c).bind fun c => (readVar x).bind fun x => (num b).map fun b => ⟨[(c, x)], false, b⟩
        else none
      | _ => none
  | _ => none

/-- Read one line of the row section: a label ending in a colon, then the row. -/
def readRow (num : Str → Option K) (line : Str) : Option (Row K) :=
  match splitAt ' ' line with
  | label :: toks => if label.getLast? = some ':' then readTerms num toks else none
  | [] => none

/-- The lines strictly between the line `from` and the line `upto`. -/
def section_ (lines : List Str) (start upto : Str) : List Str :=
  (lines.dropWhile (fun l => l ≠ start)).tail.takeWhile (fun l => l ≠ upto)

/-- The rows of an LP file: one per line between `subject to` and `bounds`. -/
def readRows (num : Str → Option K) (file : Str) : Option (List (Row K)) :=
  (section_ (splitAt '\n' file) "subject to".toList "bounds".toList).mapM (readRow num)

/-- The lines of the bound section, one per bound; `none` if the closing line `end` is missing. -/
def boundLines (file : Str) : Option (List Str) :=
  let rest := ((splitAt '\n' file).dropWhile (fun l => l ≠ "bounds".toList)).tail
  if "end".toList ∈ rest then some (rest.takeWhile (fun l => l ≠ "end".toList)) else none

end Verif.Writers

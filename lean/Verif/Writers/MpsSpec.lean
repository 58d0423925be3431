import Verif.Writers.MpsModel
import Verif.Writers.LpSpec
/-
How an MPS file is read, and what it says. Independent of how the writer works.
-/
namespace Verif.Writers

open Verif.Text Verif.State

variable {K : Type}

/-- The contents of an MPS file: constraint rows with their sense (`true` for `E`, `false` for `G`), matrix entries (variable, row or objective, value), right-hand sides, and bounds (`true` for lower). -/
structure Mps (K : Type) where
  rows : List (Bool × Nat)
  entries : List (Nat × Option Nat × K)
  rhs : List (Option Nat × K)
  bounds : List (Bool × Nat × K)
  deriving DecidableEq

/-- `obj` or `c12`. -/
def readRowId (s : Str) : Option (Option Nat) :=
  if s = "obj".toList then some none else
    match s with
    | 'c' :: n => (readNat n).map some
    | _ => none

/-- A line of the `ROWS` section; the objective row gives no constraint. -/
def readDecl (line : Str) : Option (List (Bool × Nat)) :=
  match words line with
  | [k, n] =>
    if k = "N".toList then some []
    else if k = "E".toList then (readRowId n).bind fun r => r.map fun i => [(true, i)]
    else if k = "G".toList then (readRowId n).bind fun r => r.map fun i => [(false, i)]
    else none
  | _ => none

/-- A line of the `COLUMNS` section. -/
def readEntry (num : Str → Option K) (line : Str) : Option (Nat × Option Nat × K) :=
  match words line with
  | [x, r, q] => (readVar x).bind fun x => (readRowId r).bind fun r => (num q).map fun q => (x, r, q)
  | _ => none

/-- A line of the `RHS` section. -/
def readRhs (num : Str → Option K) (line : Str) : Option (Option Nat × K) :=
  match words line with
  | [s, r, q] => if s = "rhs".toList then (readRowId r).bind fun r => (num q).map fun q => (r, q) else none
  | _ => none

/-- A line of the `BOUNDS` section. -/
def readBound (num : Str → Option K) (line : Str) : Option (Bool × Nat × K) :=
  match words line with
  | [t, s, x, q] =>
    if s = "bound".toList then
      if t = "LO".toList then (readVar x).bind fun x => (num q).map fun q => (true, x, q)
      else if t = "UP".toList then (readVar x).bind fun x => (num q).map fun q => (false, x, q)
      else none
    else none
  | _ => none

/-- Read an MPS file section by section. -/
def readMps (num : Str → Option K) (file : Str) : Option (Mps K) := do
  let lines := splitAt '\n' file
  let rows ← (section_ lines "ROWS".toList "COLUMNS".toList).mapM readDecl
  let entries ← (section_ lines "COLUMNS".toList "RHS".toList).mapM (readEntry num)
  let rhs ← (section_ lines "RHS".toList "RANGES".toList).mapM (readRhs num)
  let bounds ← (section_ lines "BOUNDS".toList "ENDATA".toList).mapM (readBound num)
  return ⟨rows.flatten, entries, rhs, bounds⟩

variable [Field K] [LinearOrder K]

/-- The value of a row at an assignment. -/
def Mps.value (m : Mps K) (r : Option Nat) (v : Nat → K) : K := (m.entries.map fun t => if t.2.1 = r then t.2.2 * v t.1 else 0).sum

/-- The right-hand side of a row; zero if none is given. -/
def Mps.rhsOf (m : Mps K) (r : Option Nat) : K := (m.rhs.map fun t => if t.1 = r then t.2 else 0).sum

/-- All rows hold. -/
def Mps.rowsHold (m : Mps K) (v : Nat → K) : Prop :=
  ∀ t ∈ m.rows, if t.1 then m.value (some t.2) v = m.rhsOf (some t.2) else m.rhsOf (some t.2) ≤ m.value (some t.2) v

/-- The objective: the format's convention is that the right-hand side of the objective row is minus the constant. -/
def Mps.objective (m : Mps K) (v : Nat → K) : K := m.value none v - m.rhsOf none

/-- The bounds given in the file hold. -/
def Mps.boundsHold (m : Mps K) (v : Nat → K) : Prop := ∀ t ∈ m.bounds, if t.1 then t.2.2 ≤ v t.2.1 else v t.2.1 ≤ t.2.2

/-- The format's default: a variable without a lower bound in the file is non-negative. -/
def Mps.defaultHolds (m : Mps K) (v : Nat → K) : Prop := ∀ t ∈ m.entries, (∀ b ∈ m.bounds, b.1 = true → b.2.1 ≠ t.1) → 0 ≤ v t.1

/-- Everything the file demands. -/
def Mps.feasible (m : Mps K) (v : Nat → K) : Prop := m.rowsHold v ∧ m.boundsHold v ∧ m.defaultHolds v

/-- Every bounded variable is a declared column. -/
def Mps.boundsDeclared (m : Mps K) : Prop := ∀ b ∈ m.bounds, ∃ t ∈ m.entries, t.1 = b.2.1

/-- A printed number reads back as the rounded number. -/
structure Rounds (fmt4 : K → Str) (num : Str → Option K) (rd : K → K) : Prop where
  read : ∀ q, num (fmt4 q) = some (rd q)
  noSpace : ∀ q, ' ' ∉ fmt4 q
  noNewline : ∀ q, '\n' ∉ fmt4 q
  ne_nil : ∀ q, fmt4 q ≠ []

end Verif.Writers

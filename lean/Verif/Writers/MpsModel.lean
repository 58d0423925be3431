import Verif.Writers.LpModel
/-
Model of `write_to_mps`: inflation/lp/writer_utils.py 61-148. The file is a list of lines joined by line ends, closed by `ENDATA`.
-/
namespace Verif.Writers

open Verif.Text Verif.State

variable {K : Type}

/-- `{:10}` on a string: pad with blanks on the right to width 10. -/
def pad10 (s : Str) : Str := s ++ List.replicate (10 - s.length) ' '

/-- `"    {:10}{:10}{:<10.4f}".format(a, b, q)`: inflation/lp/writer_utils.py 108, 112, 117, 126, 135. -/
def dataLine (fmt4 : K → Str) (a b : Str) (q : K) : Str := "    ".toList ++ (pad10 a ++ (pad10 b ++ pad10 (fmt4 q)))

/-- `" LO {:10}{:10}{:<10.4f}".format(a, b, q)`, or `UP`: inflation/lp/writer_utils.py 143, 146. -/
def boundLine (fmt4 : K → Str) (tag : Str) (b : Str) (q : K) : Str :=
  " ".toList ++ tag ++ " ".toList ++ (pad10 "bound".toList ++ (pad10 b ++ pad10 (fmt4 q)))

/-- The name of the `i`-th constraint row. -/
def rowName (i : Nat) : Str := 'c' :: natStr i

/-- Constraints with at least one variable that is not known: inflation/lp/writer_utils.py 82-86. -/
def withUnknown (known : Dict Nat K) (l : List (Dict Nat K)) : List (Dict Nat K) :=
  l.filter fun d => (Dict.keys d).any fun x => !(Dict.get known x).isSome

/-- The constraints in row order, `true` for equalities. -/
def mpsRows (p : Processed K) : List (Dict Nat K × Bool) :=
  (withUnknown p.known p.equalities).map (·, true) ++ (withUnknown p.known p.inequalities).map (·, false)

/-- `for i in range(nof_equalities): " E  c{i}"`, then ` G  c{nof_equalities + i}`: inflation/lp/writer_utils.py 98-101. -/
def rowDecls (l : List (Dict Nat K × Bool)) : List Str :=
  l.mapIdx fun i t => (if t.2 then " E  ".toList else " G  ".toList) ++ rowName i

/-- Whether `x in set(d).difference(known_vars)`. -/
def occurs (known d : Dict Nat K) (x : Nat) : Bool := (Dict.get d x).isSome && !(Dict.get known x).isSome

/-- The `COLUMNS` lines of one variable: inflation/lp/writer_utils.py 106-117. -/
def columnLines [Field K] (fmt4 : K → Str) (p : Processed K) (x : Nat) : List Str :=
  (if occurs p.known p.objective x then [dataLine fmt4 (varName x) "obj".toList (at' p.objective x)] else [])
    ++ ((mpsRows p).mapIdx fun i t => if occurs p.known t.1 x then [dataLine fmt4 (varName x) (rowName i) (at' t.1 x)] else []).flatten

/-- The `RHS` lines: inflation/lp/writer_utils.py 120-135. The sum is subtracted term by term in the code. -/
def rhsLines [Field K] [DecidableEq K] (fmt4 : K → Str) (ord : List Nat → List Nat) (p : Processed K) : List Str :=
  (if -constPart ord p.known p.objective ≠ 0 then [dataLine fmt4 "rhs".toList "obj".toList (-constPart ord p.known p.objective)] else [])
    ++ ((mpsRows p).mapIdx fun i t =>
        if -constPart ord p.known t.1 ≠ 0 then [dataLine fmt4 "rhs".toList (rowName i) (-constPart ord p.known t.1)] else []).flatten

/-- The `BOUNDS` lines: inflation/lp/writer_utils.py 141-146. -/
def boundLines' (fmt4 : K → Str) (p : Processed K) : List Str :=
  (p.lower.map fun t => boundLine fmt4 "LO".toList (varName t.1) t.2) ++ p.upper.map fun t => boundLine fmt4 "UP".toList (varName t.1) t.2

/-- All lines but the last: inflation/lp/writer_utils.py 91-146. -/
def mpsLines [Field K] [DecidableEq K] (fmt4 : K → Str) (ord : List Nat → List Nat) (filename : Str) (p : Processed K) : List Str :=
  ["* File: ".toList ++ filename, "NAME          ".toList ++ (splitAt '.' filename).headD [], "OBJSENSE".toList, "    MAX".toList]
    ++ ("ROWS".toList :: (" N  obj".toList :: rowDecls (mpsRows p))
    ++ ("COLUMNS".toList :: (p.vars.map (columnLines fmt4 p)).flatten
    ++ ("RHS".toList :: rhsLines fmt4 ord p
    ++ ("RANGES".toList :: ("BOUNDS".toList :: boundLines' fmt4 p)))))

/-- `write_to_mps`: the file's contents. -/
def writeToMps [Field K] [DecidableEq K] (fmt4 : K → Str) (ord : List Nat → List Nat) (filename : Str) (p : Processed K) : Str :=
  ((mpsLines fmt4 ord filename p).map fun l => l ++ "\n".toList).flatten ++ "ENDATA".toList

end Verif.Writers

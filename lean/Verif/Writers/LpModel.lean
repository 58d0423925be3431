import Verif.Common.Text
import Verif.State.Dict
import Mathlib.Algebra.Order.Field.Basic
/-
Model of `inflation/lp/writer_utils.py`: the exports of a linear program to the LP and the MPS text formats.

Coefficients range over an ordered field `K`. The Python conversions of floats to text are parameters: `fmt` is `str(c)` / `f"{c}"` and `fmt4` is `f"{c:<10.4f}"` before padding. The iteration order of Python sets is a parameter `ord` (a permutation of the elements).
-/
namespace Verif.Writers

open Verif.Text Verif.State

variable {V K : Type}

/-- The dictionary of arguments handed to the writers by `InflationLP._prepare_solver_arguments(separate_bounds=True)`: inflation/lp/InflationLP.py 1937-1949. A missing `objective`, `lower_bounds` or `upper_bounds` is the empty dictionary (inflation/lp/writer_utils.py 191-193). -/
structure WArgs (V K : Type) where
  vars : List V
  equalities : List (Dict V K)
  semiknown : Dict V (K × V)
  inequalities : List (Dict V K)
  known : Dict V K
  objective : Dict V K
  lower : Dict V K
  upper : Dict V K

/-- The arguments after renaming variables to `x0, x1, ...`; a variable is represented by its number. inflation/lp/writer_utils.py 203-210. -/
structure Processed (K : Type) where
  vars : List Nat
  equalities : List (Dict Nat K)
  inequalities : List (Dict Nat K)
  known : Dict Nat K
  objective : Dict Nat K
  lower : Dict Nat K
  upper : Dict Nat K
  deriving DecidableEq

/-- `{x: f"x{i}" for i, x in enumerate(old_variables)}`: inflation/lp/writer_utils.py 194. -/
def varIdxAux [DecidableEq V] : Nat → Dict V Nat → List V → Dict V Nat
  | _, d, [] => d
  | i, d, x :: xs => varIdxAux (i + 1) (d.set x i) xs

def varIdx [DecidableEq V] (vars : List V) : Dict V Nat := varIdxAux 0 [] vars

/-- `{var_idx[x]: c for x, c in d.items()}`, `none` for the `KeyError` of an undeclared variable: inflation/lp/writer_utils.py 196-201. -/
def rename [DecidableEq V] (ix : Dict V Nat) (d : Dict V K) : Option (Dict Nat K) :=
  d.foldl (fun acc t => acc.bind fun a => (Dict.get ix t.1).map fun i => a.set i t.2) (some [])

/-- `{x: 1, x2: -c}`: inflation/lp/writer_utils.py 187-188. -/
def semiRow [DecidableEq V] [Field K] (t : V × K × V) : Dict V K := Dict.set [(t.1, 1)] t.2.2 (-t.2.1)

/-- `process_arguments`: inflation/lp/writer_utils.py 169-210. -/
def processArguments [DecidableEq V] [Field K] (a : WArgs V K) : Option (Processed K) := do
  let ix := varIdx a.vars
  let eqs ← (a.equalities ++ a.semiknown.map semiRow).mapM (rename ix)
  let ineqs ← a.inequalities.mapM (rename ix)
  let known ← rename ix a.known
  let lower ← rename ix a.lower
  let upper ← rename ix a.upper
  let obj ← rename ix a.objective
  return ⟨ix.map Prod.snd, eqs, ineqs, known, obj, lower, upper⟩

/-- The kind of line `format_constraint_lp` produces. -/
inductive Kind | obj | eq | ineq
  deriving DecidableEq

/-- `set(constraint).intersection(known_vars)` in iteration order. -/
def knownPart (ord : List Nat → List Nat) (known d : Dict Nat K) : List Nat :=
  ord (d.keys.filter fun x => (Dict.get known x).isSome)

/-- `set(constraint).difference(known_vars)` in iteration order. -/
def unknownPart (ord : List Nat → List Nat) (known d : Dict Nat K) : List Nat :=
  ord (d.keys.filter fun x => !(Dict.get known x).isSome)

/-- `constraint[x]` on a key that is present. -/
def at' [Field K] (d : Dict Nat K) (x : Nat) : K := (Dict.get d x).getD 0

/-- `c += constraint[x] * known_vars[x]` over the known part: inflation/lp/writer_utils.py 234-237 (and 121-123, 130-132 with the opposite sign). -/
def constPart [Field K] (ord : List Nat → List Nat) (known d : Dict Nat K) : K :=
  ((knownPart ord known d).map fun x => at' d x * at' known x).sum

/-- The name `x{i}`: inflation/lp/writer_utils.py 194. -/
def varName (i : Nat) : Str := 'x' :: natStr i

/-- `cons += f"{constraint[x]} {x} + "`: inflation/lp/writer_utils.py 240-242. -/
def termsText [Field K] (fmt : K → Str) (d : Dict Nat K) (xs : List Nat) : Str :=
  (xs.map fun x => fmt (at' d x) ++ " ".toList ++ varName x ++ " + ".toList).flatten

/-- `format_constraint_lp`: inflation/lp/writer_utils.py 213-252. -/
def formatConstraint [Field K] (fmt : K → Str) (ord : List Nat → List Nat) (known d : Dict Nat K) (kind : Kind) : Str :=
  let cons := termsText fmt d (unknownPart ord known d)
  let c := constPart ord known d
  if cons = [] then cons else
    match kind with
    | .obj => cons ++ fmt c
    | .eq => cons.take (cons.length - 3) ++ " = ".toList ++ fmt (-c)
    | .ineq => cons.take (cons.length - 3) ++ " >= ".toList ++ fmt (-c)

/-- The loop writing `c{i}: ...` lines, skipping empty constraints; the counter only advances on a written line: inflation/lp/writer_utils.py 40-50. -/
def writeRows : Nat → List Str → Str
  | _, [] => []
  | i, s :: rows => if s = [] then writeRows i rows
      else "c".toList ++ natStr i ++ ": ".toList ++ s ++ "\n".toList ++ writeRows (i + 1) rows

/-- The bounds written without line ends: inflation/lp/writer_utils.py 53-57. -/
def boundsText (fmt : K → Str) (p : Processed K) : Str :=
  (p.lower.map fun t => fmt t.2 ++ " <= ".toList ++ varName t.1).flatten
    ++ (p.upper.map fun t => varName t.1 ++ " <= ".toList ++ fmt t.2).flatten

/-- `write_to_lp`: inflation/lp/writer_utils.py 12-58. The file's contents. -/
def writeToLp [Field K] (fmt : K → Str) (ord : List Nat → List Nat) (filename : Str) (p : Processed K) : Str :=
  "\\ File: ".toList ++ filename ++ "\n".toList
    ++ ("maximize\n".toList
    ++ ("obj: ".toList ++ formatConstraint fmt ord p.known p.objective .obj ++ "\n".toList
    ++ ("subject to\n".toList
    ++ (writeRows 0 (p.equalities.map (fun d => formatConstraint fmt ord p.known d .eq)
        ++ p.inequalities.map (fun d => formatConstraint fmt ord p.known d .ineq))
    ++ ("bounds\n".toList
    ++ (boundsText fmt p ++ "end".toList))))))

end Verif.Writers

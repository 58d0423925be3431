import Verif.Common.Text
import Verif.Common.Sort
import Verif.State.Dict
import Mathlib.Algebra.Order.Field.Basic
import Mathlib.Data.List.FinRange
import Mathlib.Algebra.Order.Ring.Abs
/-
Model of `write_to_sdpa`: the export of a semidefinite program to the sparse SDPA text format, inflation/sdp/writer_utils.py 239-420.

A moment is represented by its index `idx` (`One` has index 1, `Zero` index 0; moments compare equal exactly when their indices are equal). Coefficients range over an
ordered field `K`; `fmt` is `str(c)` / `f"{c}"` of a float, and `tol` is the constant `1e-8`. Warnings are not modelled. An exception (`KeyError`, `IndexError`) is `none`.
-/
namespace Verif.SdpWriter
open Verif.Text Verif.State Verif.Common

variable {K : Type} {n : Nat}

/-- The attributes of the `InflationSDP` object read by the writers. -/
structure Prob (K : Type) (n : Nat) where
  /-- `momentmatrix` -/
  mm : Fin n → Fin n → Nat
  /-- `known_moments` -/
  known : Dict Nat K
  /-- `semiknown_moments` -/
  semi : Dict Nat (K × Nat)
  /-- `objective` -/
  objective : Dict Nat K
  /-- `moment_upperbounds` -/
  upper : Dict Nat K
  /-- `moment_lowerbounds` -/
  lower : Dict Nat K
  /-- `moment_equalities` -/
  eqs : List (Dict Nat K)
  /-- `moment_inequalities` -/
  ineqs : List (Dict Nat K)

/-- The forms in which a number is written: `1.0`, `-1.0`, `{q}` and `-{q}`. -/
inductive Tok (K : Type)
  | one
  | negOne
  | num (q : K)
  | neg (q : K)

/-- One line of the sparse format: matrix number (0 for the constant matrix), block, row, column, value. -/
structure Ln (K : Type) where
  var : Nat
  block : Nat
  i : Nat
  j : Nat
  val : Tok K

/-- All positions of the moment matrix in reading order: the two `enumerate` loops of inflation/sdp/writer_utils.py 289-290. -/
def cells (n : Nat) : List (Fin n × Fin n) := (List.finRange n).flatMap fun i => (List.finRange n).map fun j => (i, j)

/-- `var_corresp`, `new_var` and `lines`. -/
structure Work (K : Type) where
  vc : Dict Nat Nat
  newVar : Nat
  lines : List (Ln K)

/-- The `try … except KeyError` of inflation/sdp/writer_utils.py 302-311 and 313-320: the number of the moment, a new one if it has none. -/
def addVar (w : Work K) (b i j : Nat) (k : Nat) (val : Tok K) : Work K :=
  match w.vc.get k with
  | some a => { w with lines := w.lines ++ [⟨a, b, i, j, val⟩] }
  | none => ⟨w.vc.set k w.newVar, w.newVar + 1, w.lines ++ [⟨w.newVar, b, i, j, val⟩]⟩

variable [Field K] [LinearOrder K]

/-- The body of the loop over the moment matrix, inflation/sdp/writer_utils.py 291-320. -/
def cellStep (p : Prob K n) (w : Work K) (c : Fin n × Fin n) : Work K :=
  if c.1 ≤ c.2 then
    let var := p.mm c.1 c.2
    if var = 0 then w
    else if var = 1 then { w with lines := w.lines ++ [⟨0, 1, c.1 + 1, c.2 + 1, .negOne⟩] }
    else match p.known.get var with
      | some q => { w with lines := w.lines ++ [⟨0, 1, c.1 + 1, c.2 + 1, .neg |q|⟩] }
      | none => match p.semi.get var with
        | some s => addVar w 1 (c.1 + 1) (c.2 + 1) s.2 (.num s.1)
        | none => addVar w 1 (c.1 + 1) (c.2 + 1) var .one
  else w

/-- The loops over the moment matrix, inflation/sdp/writer_utils.py 284-320. -/
def matrixPart (p : Prob K n) : Work K := (cells n).foldl (cellStep p) ⟨[], 1, []⟩

/-- `problem.momentmatrix.max()`. -/
def mmMax (p : Prob K n) : Nat := ((cells n).map fun c => p.mm c.1 c.2).foldl max 0

/-- Whether a number occurs in the moment matrix: `momentmatrix_has_a_zero`, `momentmatrix_has_a_one` (InflationSDP.py 344-345). -/
def mmHas (p : Prob K n) (k : Nat) : Bool := (cells n).any fun c => p.mm c.1 c.2 == k

/-- `nvars`, inflation/sdp/writer_utils.py 264-275. -/
def nvars (p : Prob K n) : Int :=
  let potential : Int := (mmMax p : Int) - 1
  let known : Int := if p.known.length = 1 then 0 else
    (p.known.length : Int) - (if mmHas p 0 then 1 else 0) - (if mmHas p 1 then 1 else 0)
  let new : Int := ((p.semi.filter fun t => decide (mmMax p < t.2.2)).length : Int)
  potential - known - (p.semi.length : Int) + new

/-- The objective vector: inflation/sdp/writer_utils.py 323-329. `np.zeros` raises for a negative length. -/
def objVec (p : Prob K n) (vc : Dict Nat Nat) : Option (List K) :=
  if nvars p < 0 then none else
    p.objective.foldl (fun acc t => acc.bind fun l =>
      if t.1 = 1 then some l else (vc.get t.1).bind fun a => if a - 1 < l.length then some (l.set (a - 1) t.2) else none)
      (some (List.replicate (nvars p).toNat 0))

/-- The bounds which are written: inflation/sdp/writer_utils.py 342-344. -/
def active (p : Prob K n) (d : Dict Nat K) : Dict Nat K :=
  d.filter fun t => !(decide (t.1 = 1)) && !(p.known.get t.1).isSome && !(p.semi.get t.1).isSome

/-- One upper bound, inflation/sdp/writer_utils.py 345-349. -/
def upperLines (tol : K) (vc : Dict Nat Nat) (b : Nat) (t : (Nat × K) × Nat) : Option (List (Ln K)) :=
  (vc.get t.1.1).map fun a =>
    ⟨a, b, t.2 + 1, t.2 + 1, .negOne⟩ :: if tol < |t.1.2| then [⟨0, b, t.2 + 1, t.2 + 1, .neg t.1.2⟩] else []

/-- One lower bound, inflation/sdp/writer_utils.py 364-368. -/
def lowerLines (tol : K) (vc : Dict Nat Nat) (b : Nat) (t : (Nat × K) × Nat) : Option (List (Ln K)) :=
  (vc.get t.1.1).map fun a =>
    ⟨a, b, t.2 + 1, t.2 + 1, .one⟩ :: if tol < |t.1.2| then [⟨0, b, t.2 + 1, t.2 + 1, .num t.1.2⟩] else []

/-- One term of an equality at row `ii`, inflation/sdp/writer_utils.py 378-385. -/
def eqTerm (p : Prob K n) (vc : Dict Nat Nat) (b ii : Nat) (t : Nat × K) : Option (List (Ln K)) :=
  if p.known.get t.1 = some 0 then some []
  else if t.1 = 1 then some [⟨0, b, ii, ii, .num (-t.2)⟩, ⟨0, b, ii + 1, ii + 1, .num t.2⟩]
  else (vc.get t.1).map fun a => [⟨a, b, ii, ii, .num t.2⟩, ⟨a, b, ii + 1, ii + 1, .num (-t.2)⟩]

/-- One equality: it starts at row `2 k + 1` (`ii += 2`), inflation/sdp/writer_utils.py 376-386. -/
def eqLines (p : Prob K n) (vc : Dict Nat Nat) (b : Nat) (e : Dict Nat K × Nat) : Option (List (Ln K)) :=
  (e.1.mapM (eqTerm p vc b (2 * e.2 + 1))).map List.flatten

/-- One term of an inequality other than the constants, inflation/sdp/writer_utils.py 397-400. -/
def ineqTerm (p : Prob K n) (vc : Dict Nat Nat) (b ii : Nat) (t : Nat × K) : Option (List (Ln K)) :=
  if p.known.get t.1 = some 0 then some []
  else if t.1 = 1 then some []
  else (vc.get t.1).map fun a => [⟨a, b, ii, ii, .num t.2⟩]

/-- `sumcoeffs`, inflation/sdp/writer_utils.py 395-402. -/
def sumCoeffs (p : Prob K n) (d : Dict Nat K) : K :=
  ((d.filter fun t => !(decide (p.known.get t.1 = some 0)) && decide (t.1 = 1)).map Prod.snd).sum

/-- One inequality: it is written at row `2 k + 1` (`ii += 2`), inflation/sdp/writer_utils.py 394-405. -/
def ineqLines (p : Prob K n) (vc : Dict Nat Nat) (b : Nat) (e : Dict Nat K × Nat) : Option (List (Ln K)) :=
  (e.1.mapM (ineqTerm p vc b (2 * e.2 + 1))).map fun ls =>
    ls.flatten ++ if sumCoeffs p e.1 ≠ 0 then [⟨0, b, 2 * e.2 + 1, 2 * e.2 + 1, .num (-sumCoeffs p e.1)⟩] else []

/-- `mapM` over the enumerated list, then concatenation. -/
def gather {α : Type} (f : α × Nat → Option (List (Ln K))) (l : List α) : Option (List (Ln K)) := (l.zipIdx.mapM f).map List.flatten

/-- `1` if the list is not empty (`block += 1` under `if len(...) > 0`). -/
def step {α : Type} (l : List α) : Nat := if l.isEmpty then 0 else 1

/-- The number of the block of each section after its `if len(...) > 0: block += 1`. -/
def upperBlock (p : Prob K n) : Nat := 1 + step p.upper
def lowerBlock (p : Prob K n) : Nat := upperBlock p + step p.lower
def eqBlock (p : Prob K n) : Nat := lowerBlock p + step p.eqs
def ineqBlock (p : Prob K n) : Nat := eqBlock p + step p.ineqs

/-- `blockstruct`, inflation/sdp/writer_utils.py 287, 340, 359, 375, 393. -/
def blockStruct (p : Prob K n) : List Int :=
  (n : Int)
    :: ((if p.upper.isEmpty then [] else [-((active p p.upper).length : Int)])
    ++ ((if p.lower.isEmpty then [] else [-((active p p.lower).length : Int)])
    ++ ((if p.eqs.isEmpty then [] else [-((2 * p.eqs.length : Nat) : Int)])
    ++ (if p.ineqs.isEmpty then [] else [-(p.ineqs.length : Int)]))))

/-- All lines before sorting. -/
def allLines (tol : K) (p : Prob K n) : Option (List (Ln K)) := do
  let w := matrixPart p
  let u ← gather (upperLines tol w.vc (upperBlock p)) (active p p.upper)
  let l ← gather (lowerLines tol w.vc (lowerBlock p)) (active p p.lower)
  let e ← gather (eqLines p w.vc (eqBlock p)) p.eqs
  let i ← gather (ineqLines p w.vc (ineqBlock p)) p.ineqs
  return w.lines ++ (u ++ (l ++ (e ++ i)))

/-- The sorting key `(block, var)`, inflation/sdp/writer_utils.py 417-418. -/
def lnLe (a b : Ln K) : Bool := decide (a.block < b.block) || (decide (a.block = b.block) && decide (a.var ≤ b.var))

/-- The contents of the file before printing. -/
structure File (K : Type) where
  /-- the constant of the objective, mentioned in a comment -/
  constant : K
  nvars : Nat
  blocks : List Int
  objective : List K
  lines : List (Ln K)

/-- `write_to_sdpa` without the printing. The number of blocks is the length of `blocks`: both grow together. The `KeyError` of `problem.objective[problem.One]` (331) is
modelled too. -/
def sdpaFile (tol : K) (p : Prob K n) : Option (File K) := do
  let obj ← objVec p (matrixPart p).vc
  let c ← p.objective.get 1
  let lines ← allLines tol p
  return ⟨c, (nvars p).toNat, blockStruct p, obj, sortBy lnLe lines⟩

/-- `str` of an integer. -/
def intStr (z : Int) : Str := (if z < 0 then ['-'] else []) ++ natStr z.natAbs

/-- A number as written. -/
def tokStr (fmt : K → Str) : Tok K → Str
  | .one => "1.0".toList
  | .negOne => "-1.0".toList
  | .num q => fmt q
  | .neg q => '-' :: fmt q

/-- `f"{var}\t{block}\t{ii}\t{jj}\t{coeff}\n"`. -/
def lineStr (fmt : K → Str) (l : Ln K) : Str :=
  natStr l.var ++ '\t' :: (natStr l.block ++ '\t' :: (natStr l.i ++ '\t' :: (natStr l.j ++ '\t' :: tokStr fmt l.val)))

/-- `sep.join(l)`. -/
def joinWith (sep : Str) : List Str → Str
  | [] => []
  | [s] => s
  | s :: t :: l => s ++ sep ++ joinWith sep (t :: l)

/-- The lines of the file, inflation/sdp/writer_utils.py 406-419. -/
def fileLines (fmt : K → Str) (tol : K) (filename : Str) (f : File K) : List Str :=
  ("\"file ".toList ++ filename ++ " generated by inflation\"".toList)
    :: ((if tol < |f.constant| then
          ["\"the objective contains a constant term of value ".toList ++ fmt f.constant ++ " that is not included in the program below\"".toList] else [])
    ++ ((natStr f.nvars ++ " = number of vars".toList)
    :: (natStr f.blocks.length ++ " = number of blocks".toList)
    :: ('(' :: (joinWith [','] (f.blocks.map intStr) ++ ") = BlockStructure".toList))
    :: ('{' :: (joinWith [',', ' '] (f.objective.map fmt) ++ ['}']))
    :: f.lines.map (lineStr fmt)))

/-- `write_to_sdpa`: the text of the file, `none` if an exception is raised. -/
def writeToSdpa (fmt : K → Str) (tol : K) (filename : Str) (p : Prob K n) : Option Str :=
  (sdpaFile tol p).map fun f => ((fileLines fmt tol filename f).map fun l => l ++ ['\n']).flatten

end Verif.SdpWriter

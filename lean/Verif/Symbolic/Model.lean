import Verif.SdpNames.Props
import Verif.Optimum.SdpRead
import Verif.Generate.Props
/-!
Generating sets as SymPy expressions, as arrays and as party blocks: the lists accepted and returned by `InflationSDP.build_columns` (sdp/InflationSDP.py 1107-1141, 1253-1258). A SymPy
product of the noncommutative symbols of operators is the list of its factors (symbol and exponent) with different neighbours.
-/
namespace Verif.Symbolic
open Verif.Common Verif.Scenario Verif.SdpEnd Verif.Text Verif.Names Verif.Generate
open Verif.State (Dict)
open Verif.EndToEnd (Input)
open Verif.Sanitise (naming)

/-- A SymPy expression made of symbols of operators: `S.Zero`, or a product of powers of noncommutative symbols (`S.One` if there is no factor). A symbol is determined by its name. -/
inductive Expr
  | zero
  | prod (factors : List (Str × Nat))
deriving DecidableEq

/-- A product of noncommutative powers times a symbol: equal neighbours are combined to powers (SymPy, `Mul.flatten`). -/
def timesSymbol : List (Str × Nat) → Str → List (Str × Nat)
  | [], s => [(s, 1)]
  | [f], s => if f.1 = s then [(f.1, f.2 + 1)] else [f, (s, 1)]
  | f :: g :: l, s => f :: timesSymbol (g :: l) s

/-- `sp.Mul`; the second factor is `S.Zero` (`none`) or a symbol. -/
def times : Expr → Option Str → Expr
  | .prod l, some s => .prod (timesSymbol l s)
  | _, _ => .zero

variable (I : Input) (names : List Str)

/-- `_lexrepr_to_symbols`, InflationSDP.py 164-165, InflationProblem.py 581-593. -/
def symbolOf (r : Nat) : Option Str := if r = 0 then none else (I.scenario.lexorder[r - 1]?).bind (displayName I.scenario (naming I names))

/-- `build_columns(..., symbolic=True)`, InflationSDP.py 1253-1258. -/
def symbolic (cols : List (List Nat)) : List Expr := cols.map fun m => (m.map (symbolOf I names)).foldl times (.prod [])

/-- `flatten_symbolic_powers`, sdp/quantum_tools.py 26-47. -/
def flatten (l : List (Str × Nat)) : List Str := l.flatMap fun f => List.replicate f.2 f.1

/-- `_interpret_atomic_string`, InflationSDP.py 1679-1714, as ranks (`mon_to_lexrepr`, 2293-2316, of the array): `atoms` is `atom_from_name` (520-527), `order` the order of a set. -/
def readFactor (atoms : Str → Option (List Op)) (order : List Str) (t : Str) : Option (List Nat) :=
  match atoms t with
  | some rows => Optimum.ranksOf I rows
  | none => (opFromNameSdp I.scenario (naming I names)).bind fun d => (interpretAtomic d order t).bind fun w =>
      (w.mapM fun r => I.scenario.sdpLexorder[r]?).bind (Optimum.ranksOf I)

/-- A column given as an expression, InflationSDP.py 1129-1145: `S.One` is the empty column, symbols, powers and products are read by `_interpret_name` (1668-1677; the symbols of
moments are commutative, so a product of operators is never among them), and the type of `S.Zero` is not accepted. -/
def readExpr (atoms : Str → Option (List Op)) (order : List Str) : Expr → Option (List Nat)
  | .zero => none
  | .prod l => if l.isEmpty then some [] else ((flatten l).mapM (readFactor I names atoms order)).map List.flatten

/-- The entries of the list given to `build_columns`. -/
inductive Cell
  | block (parties : List Nat)
  | rows (operators : List Op)
  | ranks (word : List Nat)
  | number (n : Int)
  | expr (e : Expr)

/-- `self.mon_to_lexrepr(mon)` for a two-dimensional array, InflationSDP.py 1118. -/
def readRows : Cell → Option (List Nat)
  | .rows ops => Optimum.ranksOf I ops
  | _ => none

/-- `np.array(mon, dtype=np.intc)`, InflationSDP.py 1123. -/
def readRanks : Cell → Option (List Nat)
  | .ranks w => some w
  | _ => none

/-- InflationSDP.py 1131-1148. -/
def readSymbol (atoms : Str → Option (List Op)) (order : List Str) : Cell → Option (List Nat)
  | .number n => if n = 1 then some [] else none
  | .expr e => readExpr I names atoms order e
  | _ => none

/-- A block of parties. -/
def readBlock : Cell → Option (List Nat)
  | .block b => some b
  | _ => none

/-- The list branch of `build_columns`, InflationSDP.py 1101-1151: the first entry decides the format, for arrays the second one. Lists which mix blocks, arrays and expressions are not
modelled; `none` is an exception (`IndexError` for an empty list and for a single array). -/
def readList (atoms : Str → Option (List Op)) (order : List Str) : List Cell → Option (List (List Nat))
  | [] => none
  | .block b :: rest => ((Cell.block b :: rest).mapM readBlock).map (specCols I)
  | [.rows _] => none
  | [.ranks _] => none
  | .rows w :: .rows v :: rest => (Cell.rows w :: .rows v :: rest).mapM (readRows I)
  | .ranks w :: .ranks v :: rest => (Cell.ranks w :: .ranks v :: rest).mapM readRanks
  | .rows _ :: _ :: _ => none
  | .ranks _ :: _ :: _ => none
  | .number n :: rest => (Cell.number n :: rest).mapM (readSymbol I names atoms order)
  | .expr .zero :: _ => none
  | .expr (.prod l) :: rest => (Cell.expr (.prod l) :: rest).mapM (readSymbol I names atoms order)

/-- The columns as two-dimensional arrays, `self._lexorder[lexmon]`. -/
def arrays (cols : List (List Nat)) : List (List Op) := cols.map fun m => m.filterMap fun r => I.scenario.sdpLexorder[r]?

end Verif.Symbolic

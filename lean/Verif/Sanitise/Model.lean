import Verif.EndToEnd.Model
import Verif.Names.Atoms
/-!
Model of the table of moments of `InflationLP` and of the way in which moments given by the user are read: `_monomial_from_atoms` (lp/InflationLP.py 1008-1038), `_sanitise_monomial`
(1040-1110), `_interpret_name` (1141-1175), `_interpret_atomic_string` (1177-1212), `_interpret_operator_string` (1214-1226), `atom_from_name` (252-259), the registration of the
moments during `_generate_lp` (1246-1251, 1304-1318), `symbol_from_atom_name`, `symbol_prod` (sdp/monomial_utils.py 85-125) and `flatten_symbolic_powers` (sdp/quantum_tools.py 26-47).
Text is a list of characters; a SymPy product is the list of the texts of its symbols, each repeated according to its exponent, and two products are equal when the lists are
permutations of each other; sums, numerical factors and non-integer exponents are not modelled. Hashes are the hashed arrays. The order in which the set `substrings_to_kill` is iterated
is a parameter. Messages are not modelled.
-/
namespace Verif.Sanitise
open Verif.Common Verif.Scenario Verif.Orbits Verif.Components Verif.Moment Verif.State Verif.Text Verif.Names Verif.EndToEnd

/-! ### Integer types -/

/-- Number of values of `np.min_scalar_type(v)` for a non-negative integer: 8, 16, 32 or 64 bits (larger values are not numpy integers and do not occur; the last branch only makes the
function total). -/
def minWidth (v : Nat) : Nat :=
  if v < 256 then 256 else if v < 65536 then 65536 else if v < 4294967296 then 4294967296 else if v < 18446744073709551616 then 18446744073709551616 else v + 1

/-- Number of values of `_np_dtype`, InflationProblem.py 308-312 (`np.result_type` of unsigned integer types is the largest of them). -/
def dtypeWidth (S : Scenario) : Nat :=
  max (max (minWidth (((List.range S.nParties).map S.settings).foldl max 0)) (minWidth (((List.range S.nParties).map S.outcomes).foldl max 0)))
    (max (minWidth (S.nParties + 1)) (minWidth (((List.range S.nSources).map S.level).foldl max 0 + 1)))

/-- `np.asarray(array, dtype=self.np_dtype)` for an array of non-negative integers: the values wrap around. (Given a Python list, recent versions of numpy raise an exception instead if a
value is too large; the ranks computed from two-dimensional arrays and names are numpy arrays.) -/
def wrap (S : Scenario) (a : List Nat) : List Nat := a.map (· % dtypeWidth S)

/-- The same for the rows of a two-dimensional array. -/
def wrapOp (S : Scenario) (op : Op) : Op := ⟨op.party % dtypeWidth S, op.copies.map (· % dtypeWidth S), op.setting % dtypeWidth S, op.outcome % dtypeWidth S⟩

/-! ### Names of moments -/

/-- The names of the parties together with the numbers of private settings and the parents. -/
def naming (I : Input) (names : List Str) : Naming := ⟨names, fun p => I.priv.getD p 0, I.parents⟩

variable (I : Input) (names : List Str)

/-- `InternalAtomicMonomial.name`, lp/monomial_classes.py 100, 146-166 (`is_all_commuting` is true for every moment of the LP, InflationLP.py 88-90). -/
def atomText (a : Atom) : Str := (momentName I.scenario (naming I names) (I.doConditional a) true (I.operators a)).getD []

/-- `InternalAtomicMonomial.legacy_name`, lp/monomial_classes.py 101, 168-200. -/
def legacyText (a : Atom) : Str :=
  if I.knowable a then rawName names (((Knowable.rectify I.dims (Knowable.rowsOf (I.operators a)))).getD [])
  else '<' :: joinStr ' ' ((I.operators a).map fun op => (legacyName I.scenario (naming I names) op).getD []) ++ ['>']

/-- `CompoundMoment.name`, lp/monomial_classes.py 304-305. -/
def momentText (m : Mon) : Str := joinChars (m.map (atomText I names))

/-- `CompoundMoment.legacy_name`, lp/monomial_classes.py 306-307. -/
def momentLegacy (m : Mon) : Str := joinChars (m.map (legacyText I names))

/-- The inside of a match of `_[^=]*=`: `replace('_', '_{').replace('=', '}{=}')`; after the match `subst` continues. -/
def symbolScan : Bool → Str → Str
  | _, [] => []
  | false, c :: s => if c = '_' ∧ '=' ∈ s then '_' :: '{' :: symbolScan true s else c :: symbolScan false s
  | true, c :: s => if c = '_' then '_' :: '{' :: symbolScan true s else if c = '=' then '}' :: '{' :: '=' :: '}' :: symbolScan false s else c :: symbolScan true s

/-- The text of the symbol of an atom, `symbol_from_atom_name`, sdp/monomial_utils.py 99-105: `re.sub("_[^=]*=", ...)` from left to right, then `replace(' ', ',')`. -/
def symbolText (a : Atom) : Str := (symbolScan false (atomText I names a)).map fun c => if c = ' ' then ',' else c

/-! ### The table of moments -/

/-- The attributes `_atomic_monomial_from_hash`, `monomial_from_atoms` (its keys, which are also its values), `monomial_from_name` and `monomial_from_symbol` (latest entry first). -/
structure Session where
  cache : Cache
  created : List Mon
  table : Dict Str Mon
  symbols : List (List Str × Mon)

/-- `_monomial_from_atoms`, InflationLP.py 1023-1038. -/
def register (s : Session) (m : Mon) : Session :=
  if m ∈ s.created then s
  else ⟨s.cache, s.created ++ [m], (s.table.set (momentText I names m) m).set (momentLegacy I names m) m, (m.map (symbolText I names), m) :: s.symbols⟩

/-- `Monomial`, InflationLP.py 982-1006. -/
def monomial (s : Session) (a : List Nat) : Session × Mon :=
  let r := monomialOf I.scenario s.cache a
  (register I names { s with cache := r.1 } r.2, r.2)

/-- `self.constant_term_name`, InflationLP.py 60. -/
def constantName : Str := "constant_term".toList

/-- The tables when the columns are created: `One` was made in `__init__` (189-194), then the caches were emptied except for names and symbols and `Constant_Term`, which equals `One`, was
added (1246-1251). -/
def start : Session :=
  ⟨[], [], (Dict.set (Dict.set [] ['1'] []) constantName []), [([], [])]⟩

/-- The session after `__init__`: the moments of the columns are created in order, InflationLP.py 1304-1318. -/
def generated : Session := I.columns.foldl (fun s v => (monomial I names s (flatnonzero v)).1) (start)

/-! ### Reading moments -/

/-- `atom_from_name`, InflationLP.py 252-259 (the factors of the columns, in sorted order; the legacy name after the name). -/
def atomFromName : Dict Str Atom :=
  I.atomicFactors.foldl (fun d a => (d.set (atomText I names a) a).set (legacyText I names a) a) []

/-- The accepted ways of writing a moment. -/
inductive Form
  | moment (m : Mon)
  | atom (a : Atom)
  | array1 (ranks : List Nat)
  | array2 (rows : List Op)
  | name (s : Str)
  | symbol (factors : List Str)
  | number (r : Rat)

/-- `np.isclose(float(mon), 1)`. -/
def isClose1 (r : Rat) : Bool := decide (|r - 1| ≤ 1 / 100000000 + 1 / 100000)

/-- `_interpret_atomic_string`, InflationLP.py 1177-1212: the operators of the factor; `none` is an exception. -/
def interpretFactor (order : List Str) (f : Str) : Option (List Op) :=
  match Dict.get (atomFromName I names) f with
  | some a => some (I.operators a)
  | none => ((opFromName I.scenario (naming I names)).bind fun d => interpretAtomic d order f).bind fun w => w.mapM fun r => I.scenario.lexorder[r]?

/-- `_interpret_name` on a string that is not in the table, InflationLP.py 1157-1175; the operators of the factors are stacked. -/
def interpretName (order : List Str) (t : Str) : Option (List Op) := ((splitAt '*' t).mapM (interpretFactor I names order)).map List.flatten

/-- The branch for one-dimensional arrays, InflationLP.py 1086-1093; `none` is the `IndexError` of a rank that is too large. -/
def readRanks (s : Session) (a : List Nat) : Option (Session × Mon) :=
  if (wrap I.scenario a).all fun r => decide (r < I.scenario.lexorder.length) then some (monomial I names s (wrap I.scenario a)) else none

/-- The branch for two-dimensional arrays, InflationLP.py 1086-1091: both the array and the ranks computed from it are converted to `np_dtype`. -/
def readRows (s : Session) (rows : List Op) : Option (Session × Mon) :=
  (I.scenario.monToLexrepr (rows.map (wrapOp I.scenario))).bind (readRanks I names s)

/-- `_sanitise_monomial`, InflationLP.py 1062-1110; `none` is an exception. -/
def sanitise (order : List Str) (s : Session) : Form → Option (Session × Mon)
  | .moment m => some (s, m)
  | .atom a => some (register I names s [a], [a])
  | .array1 a => readRanks I names s a
  | .array2 rows => readRows I names s rows
  | .name t =>
    match Dict.get s.table t with
    | some m => some (s, m)
    | none => (interpretName I names order t).bind (readRows I names s)
  | .symbol l =>
    match s.symbols.find? fun e => e.1.isPerm l with
    | some e => some (s, e.2)
    | none =>
      match (if l.length = 1 then Dict.get s.table (l.headD []) else none) with
      | some m => some (s, m)
      | none => ((l.mapM (interpretFactor I names order)).map List.flatten).bind (readRows I names s)
  | .number r => if isClose1 r then some (s, []) else none

end Verif.Sanitise

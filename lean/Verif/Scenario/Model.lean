/-
Model of the scenario construction of `inflation/InflationProblem.py` (`InflationProblem.__init__`).
Simplifications: per-party and per-source `numpy` arrays are functions of the index; a row of the operator list
(`[party, copy_1, ..., copy_n, setting, outcome]`) is the structure `Op` with the same fields.
Fixed-width row dtypes are not modelled (they are chosen by the code, lines 307-312, wide enough for every entry).
-/
namespace Verif.Scenario

/-- A row of the lexorder: `op[0]`, `op[1:-2]`, `op[-2]`, `op[-1]`
(InflationProblem.py 346-362: `measurements_per_party`). -/
structure Op where
  party : Nat
  copies : List Nat
  setting : Nat
  outcome : Nat
deriving DecidableEq, Repr

/-- The data `__init__` has computed before it builds the operators:
`nr_parties`, `nr_sources`, `outcomes_per_party`, `settings_per_party` (effective settings),
`hypergraph[source, party]`, `inflation_level_per_source`. -/
structure Scenario where
  nParties : Nat
  nSources : Nat
  outcomes : Nat → Nat
  settings : Nat → Nat
  hyp : Nat → Nat → Bool
  level : Nat → Nat

/-- `numpy.ndindex(*dims)`: all index tuples, last index fastest. -/
def ndindex : List Nat → List (List Nat)
  | [] => [[]]
  | d :: ds => (List.range d).flatMap fun i => (ndindex ds).map (i :: ·)

namespace Scenario
variable (S : Scenario)

/-- `active_sources = self.hypergraph[:, party]`, InflationProblem.py 318. -/
def active (p : Nat) : List Nat := (List.range S.nSources).map fun s => if S.hyp s p then 1 else 0

/-- `num_copies = np.maximum(active_sources * inflation_level_per_source, 1)`,
InflationProblem.py 319-322. -/
def numCopies (p : Nat) : List Nat :=
  (List.range S.nSources).map fun s => max ((if S.hyp s p then 1 else 0) * S.level s) 1

/-- `inflation_indices_per_party[party]`, InflationProblem.py 315-328. -/
def inflationIndices (p : Nat) : List (List Nat) :=
  (ndindex (S.numCopies p)).map fun inc => List.zipWith (· + ·) (S.active p) inc

/-- The (party, copies, setting) triples in the order of `_ortho_groups`, InflationProblem.py 344-374
(party, then inflation indices, then settings). -/
def measKeys : List (Nat × List Nat × Nat) :=
  (List.range S.nParties).flatMap fun p =>
    (S.inflationIndices p).flatMap fun I =>
      (List.range (S.settings p)).map fun s => (p + 1, I, s)

/-- One group of orthogonal operators: all outcomes of one measurement
(`measurements_per_party.reshape((-1, O_card, nr_properties))`, InflationProblem.py 366-373). -/
def orthoGroup (k : Nat × List Nat × Nat) : List Op :=
  (List.range (S.outcomes (k.1 - 1))).map fun o => ⟨k.1, k.2.1, k.2.2, o⟩

/-- `_ortho_groups`, InflationProblem.py 366-374. -/
def orthoGroups : List (List Op) := S.measKeys.map S.orthoGroup

/-- `_lexorder = np.vstack(self._ortho_groups)`, InflationProblem.py 392. -/
def lexorder : List Op := S.orthoGroups.flatten

/-- `_ortho_idxs`: for every group the block of consecutive ranks, InflationProblem.py 376-390. -/
def orthoIdxs : List (List Nat) :=
  (S.orthoGroups.foldl (fun (acc : List (List Nat) × Nat) g =>
    (acc.1 ++ [(List.range g.length).map (· + acc.2)], acc.2 + g.length)) ([], 0)).1

/-- `mon_to_lexrepr` / `_lexorder_lookup` on one operator, InflationProblem.py 475-493:
the rank, or `KeyError` (`none`). (A dict built by enumeration keeps the last index of a duplicate;
there are none, see `lexorder_nodup`.) -/
def lookup (op : Op) : Option Nat := S.lexorder.idxOf? op

/-- `mon_to_lexrepr`, InflationProblem.py 491-496; `none` is the raised exception. -/
def monToLexrepr (mon : List Op) : Option (List Nat) := mon.mapM S.lookup

/-- `self._lexorder[lexmon]`, e.g. InflationProblem.py 814-815. -/
def lexreprToMon (w : List Nat) : Option (List Op) := w.mapM fun i => S.lexorder[i]?

end Scenario

/-- `settings_per_party[i] = np.prod([private] + [outcomes of the parents])`,
InflationProblem.py 224-231; `dims` is `settings_per_party_lst[i]`. -/
def effectiveSettings (dims : List Nat) : Nat := dims.foldr (· * ·) 1

/-- `effective_to_parent_settings[i] = dict(zip(range(settings), np.ndindex(*dims)))`,
InflationProblem.py 233-239. -/
def effectiveToParent (dims : List Nat) : List (Nat × List Nat) :=
  List.zip (List.range (effectiveSettings dims)) (ndindex dims)

/-- Reading `effective_to_parent_settings[i][e]`; `none` is a `KeyError`. -/
def decodeSetting (dims : List Nat) (e : Nat) : Option (List Nat) := (effectiveToParent dims).lookup e

/-- `nb_lexorder_idx`, fast_npa.py 166-189: first matching row, `-1` if there is none. -/
def nbLexorderIdx (op : Op) (lex : List Op) : Int :=
  match lex.idxOf? op with
  | some i => i
  | none => -1

/-- `nb_mon_to_lexrepr`, fast_npa.py 191-214. -/
def nbMonToLexrepr (mon : List Op) (lex : List Op) : List Int := mon.map (nbLexorderIdx · lex)

end Verif.Scenario

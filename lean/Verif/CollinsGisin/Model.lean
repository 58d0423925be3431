import Verif.Common.Unique
import Verif.Orbits.Model
import Verif.Cliques.Model
import Verif.Scenario.Commute
/-
Model of the generation of the linear program's rows in Collins-Gisin form: `InflationLP.__init__` lines 130-169,
`generate_lp` lines 1253-1292, `_template_to_event_boolarray`, `_raw_monomials_as_lexboolvecs`,
`_maximal_event_as_lexboolvecs`, `minimal_sparse_equalities` and `minimal_sparse_inequalities` (lines 1359-1512).
Bit vectors are lists of Booleans; a sparse row is the list of its (coefficient, column) pairs; `none` is a raised
exception (`KeyError`).
-/
namespace Verif.CollinsGisin
open Verif.Common
open Verif.Orbits

/-- The measurements, in the order of `_ortho_idxs`: for each one the flag `has_children` of its party and the block of the ranks
of its outcomes (InflationProblem.py 374-387, InflationLP.py 131-133). -/
abbrev Groups := List (Bool × List Nat)

/-- Flag `has_children` after lines 131-133 (it is forced when `include_all_outcomes or supports_problem`). -/
def effChildren (hasChildren : Nat → Bool) (force : Bool) (p : Nat) : Bool := force || hasChildren p

/-- The measurements of a problem: the blocks of `_ortho_idxs_per_party` with the flag of the party, InflationLP.py 136-154. -/
def groupsOf (S : Verif.Scenario.Scenario) (hasChildren : Nat → Bool) (force : Bool) : Groups :=
  (S.measKeys.zip S.orthoIdxs).map fun kb => (effChildren hasChildren force (kb.1.1 - 1), kb.2)

/-- `self._lexeye[ortho_group]`, InflationLP.py 140. -/
def asBoolArray (n : Nat) (g : List Nat) : List (List Bool) := g.map fun i => boolKey n [i]

/-- `_all_ortho_groups_as_boolarrays`, InflationLP.py 154. -/
def allGroups (n : Nat) (gs : Groups) : List (List (List Bool)) := gs.map fun g => asBoolArray n g.2

/-- `_CG_limited_ortho_groups_as_boolarrays`, InflationLP.py 147-153. -/
def cgGroups (n : Nat) (gs : Groups) : List (List (List Bool)) :=
  gs.map fun g => if g.1 then asBoolArray n g.2 else (asBoolArray n g.2).dropLast

/-- `_CG_adjusting_ortho_groups_as_boolarrays` (`flag = false`, childless parties) and
`_CG_nonadjusting_ortho_groups_as_boolarrays` (`flag = true`), InflationLP.py 147-152. -/
def flagged (n : Nat) (gs : Groups) (flag : Bool) : List (List (List Bool)) :=
  (gs.filter fun g => g.1 == flag).map fun g => asBoolArray n g.2

/-- `np.bitwise_or` of two vectors. -/
def bvOr (a b : List Bool) : List Bool := List.zipWith (· || ·) a b

/-- `np.bitwise_or.reduce([bool_array[-1] for bool_array in groups])`, InflationLP.py 160-169
(`_boolvec_for_not_being_in_CG_notation`, `_boolvec_to_trigger_equality_generation`). -/
def lastRows (n : Nat) (tg : List (List (List Bool))) : List Bool :=
  tg.foldl (fun acc g => bvOr acc (g.getLastD (List.replicate n false))) (List.replicate n false)

/-- `nb_outer_bitwise_or`, numbafied.py 56-60. -/
def outerOr (A B : List (List Bool)) : List (List Bool) := A.flatMap fun a => B.map fun b => bvOr a b

/-- `nb_outer_bitwise_xor`, numbafied.py 63-67. -/
def outerXor (A B : List Bool) : List Bool := A.flatMap fun a => B.map fun b => xor a b

/-- `functools.reduce(f, l)`; it is only applied to non-empty lists here (`TypeError` otherwise, rendered by `d`). -/
def reduce1 {α : Type} (f : α → α → α) (d : α) : List α → α
  | [] => d
  | a :: l => l.foldl f a

/-- `_template_to_event_boolarray`, InflationLP.py 1359-1364. -/
def templateEvents (n : Nat) (decompressor : List (List (List Bool))) (template : List Nat) : List (List Bool) :=
  if template.isEmpty then [List.replicate n false]
  else reduce1 outerOr [] ((sortBy (fun a b => decide (b ≤ a)) template).map fun t => decompressor.getD t [])

/-- `_raw_monomials_as_lexboolvecs`, InflationLP.py 1376-1384. -/
def rawMonomials (n : Nat) (gs : Groups) (adj : Nat → Nat → Bool) : List (List Bool) :=
  (Verif.Cliques.allAndMaximalCliques gs.length adj 0 true).1.flatMap (templateEvents n (cgGroups n gs))

/-- `_maximal_event_as_lexboolvecs`, InflationLP.py 1386-1394. -/
def maximalEvents (n : Nat) (gs : Groups) (adj : Nat → Nat → Bool) : List (List Bool) :=
  (Verif.Cliques.allAndMaximalCliques gs.length adj 0 true).2.flatMap (templateEvents n (allGroups n gs))

/-- The orbit labels of a list of vectors, InflationLP.py 1264-1276; without symmetrisation each vector is its own label
(lines 1282-1287). -/
def labels (symReq : Bool) (syms : List (List Nat)) (vecs : List (List Bool)) : List Nat :=
  if symReq then (discoverOrbits syms vecs).map fun o => o.getD 0 else List.range vecs.length

/-- `vecs[unique_indices]`, InflationLP.py 1268-1291 (for the identity labels `np.unique` is the identity). -/
def representatives (symReq : Bool) (syms : List (List Nat)) (vecs : List (List Bool)) : List (List Bool) :=
  (npUniquePos (labels symReq syms vecs)).map fun i => vecs.getD i []

/-- `self.inverse[self._raw_lookup_dict[bv.tobytes()]]`, InflationLP.py 1256-1257, 1288, 1431-1433, 1499-1501. -/
def columnOf (symReq : Bool) (syms : List (List Nat)) (raw : List (List Bool)) (bv : List Bool) : Option Nat :=
  (raw.idxOf? bv).bind fun i => (npUniqueInv (labels symReq syms raw))[i]?

/-- `alternatives_as_boolarrays`, InflationLP.py 1403-1406 and 1473-1476. -/
def alternatives (n : Nat) (tg : List (List (List Bool))) : List (Nat × List (List Bool)) :=
  (flatnonzero (lastRows n tg)).zip (tg.map fun r => List.replicate n false :: r.dropLast)

/-- `critical_boolvec_intersection`, InflationLP.py 1414, 1483. -/
def critical (n : Nat) (tg : List (List (List Bool))) (bv : List Bool) : List Bool :=
  List.zipWith (· && ·) bv (lastRows n tg)

/-- `absent_c_boolvec`, InflationLP.py 1417-1418, 1486-1487. -/
def absentC (n : Nat) (tg : List (List (List Bool))) (bv : List Bool) : List Bool :=
  List.zipWith (fun b c => b && !c) bv (critical n tg bv)

/-- The (sign, vector) pairs of lines 1419-1427 and 1488-1498. -/
def terms (n : Nat) (tg : List (List (List Bool))) (bv : List Bool) : Option (List (Bool × List Bool)) :=
  ((flatnonzero (critical n tg bv)).mapM fun i => (alternatives n tg).lookup i).map fun alts =>
    let signs := reduce1 outerXor [] (alts.map fun A => A.map fun r => r.any id)
    let adjustments := reduce1 outerOr [] alts
    signs.zip (adjustments.map fun r => bvOr (absentC n tg bv) r)

/-- A sparse row: `np.power(-1, signs)` and the columns of the terms, InflationLP.py 1431-1438, 1499-1506. -/
def toRow (col : List Bool → Option Nat) (ts : List (Bool × List Bool)) : Option (List (Int × Nat)) :=
  ts.mapM fun t => (col t.2).map fun c => (if t.1 then -1 else 1, c)

/-- `minimal_sparse_equalities`, InflationLP.py 1396-1444. -/
def equalities (n : Nat) (gs : Groups) (adj : Nat → Nat → Bool) (symReq : Bool) (syms : List (List Nat)) :
    Option (List (List (Int × Nat))) :=
  let raw := rawMonomials n gs adj
  let tg := flagged n gs true
  ((representatives symReq syms raw).filter fun bv => (critical n tg bv).any id).mapM fun bv =>
    (terms n tg bv).bind fun ts => toRow (columnOf symReq syms raw) (ts ++ [(true, bv)])

/-- One row of `minimal_sparse_inequalities`, InflationLP.py 1480-1510. -/
def inequalityRow (n : Nat) (tg : List (List (List Bool))) (col : List Bool → Option Nat) (bv : List Bool) :
    Option (List (Int × Nat)) :=
  if (critical n tg bv).any id then (terms n tg bv).bind (toRow col) else toRow col [(false, bv)]

/-- `minimal_sparse_inequalities`, InflationLP.py 1466-1512. -/
def inequalities (n : Nat) (gs : Groups) (adj : Nat → Nat → Bool) (symReq : Bool) (syms : List (List Nat)) :
    Option (List (List (Int × Nat))) :=
  (representatives symReq syms (maximalEvents n gs adj)).mapM
    (inequalityRow n (flagged n gs false) (columnOf symReq syms (rawMonomials n gs adj)))

/-- `_compatible_template_measurements`, InflationProblem.py 410-412: templates are represented by their first
outcome; all compatible when every source is classical. -/
def templateAdj (S : Verif.Scenario.Scenario) (D : Verif.Scenario.DagInput) (anyNonclassical : Bool) (a b : Nat) : Bool :=
  let rank := fun t => (S.orthoIdxs.getD t []).headD 0
  !(anyNonclassical && Verif.Scenario.commutationMatrix S.lexorder D.tbl false (rank a) (rank b))

end Verif.CollinsGisin

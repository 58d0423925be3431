import Verif.EndToEnd.Spec
import Verif.LpSolver.Inflation
import Verif.State.LpModel
import Verif.Components.Model
import Verif.Knowable.Model
import Verif.Marginal.Model
/-!
The construction of the linear program of `InflationLP` from the arguments of `InflationProblem`, up to and including `set_distribution`: the pieces modelled elsewhere
(scenario, columns, rows, factorisation, representatives, knowability, marginals, user-visible state) put together in the order in which the code runs them.
Simplifications: node names are numbers (`DagInput`), numpy arrays are lists or functions, floats are exact rationals, progress bars, messages and the monomials' names are
not modelled (names are a parameter).
-/
namespace Verif.EndToEnd
open Verif.Common Verif.Scenario Verif.Orbits Verif.Components Verif.Moment Verif.State
open Verif.Symmetry (lexorderSymmetries)
open Verif.CollinsGisin (groupsOf templateAdj equalities inequalities)
open Verif.LpSolver (columnsOf)

/-- The arguments of `InflationProblem` (`dag`, `order` and the latents in `D`; `outcomes_per_party`; `settings_per_party`; `inflation_level_per_source`) and of
`InflationLP` (`include_all_outcomes`). -/
structure Input where
  D : DagInput
  outcomes : List Nat
  priv : List Nat
  levels : List Nat
  allOutcomes : Bool

namespace Input
variable (I : Input)

/-- The name of party `p`. -/
def nameOf (p : Nat) : Nat := I.D.names.getD p 0

/-- `self.has_children`, InflationProblem.py 206-216. -/
def hasChildren (p : Nat) : Bool := (I.D.dag.map Prod.fst).contains (I.nameOf p)

/-- `self.is_network`, InflationProblem.py 208. -/
def isNetwork : Bool := (I.D.dag.map Prod.fst).all fun n => !(I.D.names.contains n)

/-- `self.parents_per_party`, InflationProblem.py 209-223. -/
def parents (p : Nat) : List Nat :=
  (List.range I.D.names.length).filter fun q => I.hasChildren q && (I.D.children (I.nameOf q)).contains (I.nameOf p)

/-- The observed structure of the problem (`parents_per_party`, `private_settings_per_party`). -/
def observed : Observed := ⟨I.parents, fun p => I.priv.getD p 0⟩

/-- `settings_per_party_lst`, InflationProblem.py 224-227. -/
def dims (p : Nat) : List Nat := I.priv.getD p 0 :: (I.parents p).map fun q => I.outcomes.getD q 0

/-- `nr_parties`, `nr_sources`, `outcomes_per_party`, `settings_per_party`, `hypergraph`, `inflation_level_per_source`, InflationProblem.py 91-286. -/
def scenario : Scenario where
  nParties := I.D.names.length
  nSources := I.D.sources.length
  outcomes := fun p => I.outcomes.getD p 0
  settings := fun p => effectiveSettings (I.dims p)
  hyp := fun s p => I.D.hypRow (I.D.sources.getD s 0) p == 1
  level := fun s => I.levels.getD s 0

/-- `np.any(self._nonclassical_sources)`, InflationProblem.py 402. -/
def anyNonclassical : Bool := I.D.sources.any fun s => I.D.bonus s == 1

/-- `symmetrization_required = np.any(self.inflation_levels - 1)`, InflationLP.py 1258. -/
def symmetrize : Bool := I.levels.any fun l => l != 1

/-- `_monomials_as_lexboolvecs`, InflationLP.py 1249-1287. -/
def columns : List (List Bool) := columnsOf I.scenario I.D I.anyNonclassical I.hasChildren I.allOutcomes I.symmetrize

end Input

/-- The list of atoms of `Monomial`, InflationLP.py 1001-1003, with the cache of atomic monomials passed along. -/
def atomsOf (S : Scenario) (cache : Cache) : List (List Nat) → Cache × List Atom
  | [] => (cache, [])
  | f :: fs =>
    if f.isEmpty then atomsOf S cache fs
    else
      let r := atomicMonomial S.lexorder.length (lexorderSymmetries S) cache f
      let t := atomsOf S r.1 fs
      (t.1, r.2 :: t.2)

/-- `Monomial`, InflationLP.py 982-1006: the moment is given by its sorted atoms (`_monomial_from_atoms`, 1009-1036). -/
def monomialOf (S : Scenario) (cache : Cache) (a : List Nat) : Cache × Mon :=
  let r := atomsOf S cache (factorize S a)
  (r.1, sortBy atomLe r.2)

/-- The loop over the columns, InflationLP.py 1304-1318. -/
def columnMoments (S : Scenario) : Cache → List (List Bool) → List Mon
  | _, [] => []
  | cache, v :: vs =>
    let r := monomialOf S cache (flatnonzero v)
    r.2 :: columnMoments S r.1 vs

namespace Input
variable (I : Input)

/-- `self.monomials`, InflationLP.py 1247, 1297-1321. -/
def monomials : List Mon := columnMoments I.scenario [] I.columns

/-- The operators of an atom (`as_2d_array`, lp/monomial_classes.py 65). -/
def operators (a : Atom) : List Op := a.filterMap fun r => I.scenario.lexorder[r]?

/-- `is_do_conditional`, lp/monomial_classes.py 76-83. -/
def doConditional (a : Atom) : Bool := a.isEmpty || Knowable.isDoConditional I.scenario.nSources (I.operators a)

/-- `is_knowable`, lp/monomial_classes.py 76-87 (`all_commuting_q_1d` is constantly true for the LP, InflationLP.py 90). -/
def knowable (a : Atom) : Bool :=
  a.isEmpty || (I.doConditional a &&
    Knowable.atomicKnowable I.scenario.nSources I.isNetwork I.parents I.dims (I.operators a) == some true)

/-- The rows `column ↦ coefficient` of a generated matrix, InflationLP.py 1436-1444, 1504-1512. -/
def sparseRows (rows : List (List (Int × Nat))) : List (Dict Nat Rat) := rows.map fun row => row.map fun t => (t.2, (t.1 : Rat))

/-- The program as generated by `InflationLP(InflationProblem(...))`; `none` when a generated matrix is not defined or one of the assertions InflationLP.py 1322-1326 fails. -/
def lpEnv (name : Atom → String) : Option (Env Mon) :=
  match equalities I.scenario.lexorder.length (groupsOf I.scenario I.hasChildren I.allOutcomes) (templateAdj I.scenario I.D I.anyNonclassical) I.symmetrize
      (lexorderSymmetries I.scenario),
    inequalities I.scenario.lexorder.length (groupsOf I.scenario I.hasChildren I.allOutcomes) (templateAdj I.scenario I.D I.anyNonclassical) I.symmetrize
      (lexorderSymmetries I.scenario) with
  | some eqs, some ineqs =>
    if I.monomials.head? = some one ∧ I.monomials.Nodup then
      some ⟨⟨I.knowable, I.doConditional, fun _ => false, name⟩, id, I.monomials, false, sparseRows eqs, sparseRows ineqs⟩
    else none
  | _, _ => none

/-- `atomic_factors`, InflationLP.py 237-242. -/
def atomicFactors : List Atom := sortBy atomLe (dedupB I.monomials.flatten)

/-- `rectified_ndarray`, lp/monomial_classes.py 88-98. -/
def rectified (a : Atom) : Option (List Marginal.Row) :=
  if a.isEmpty then some []
  else (Knowable.rectify I.dims (Knowable.rowsOf (I.operators a))).map fun rows => rows.map fun r => ⟨r.1, r.2.1, r.2.2⟩

/-- `compute_marginal` of an atom, lp/monomial_classes.py 199-219 (the two halves of the shape of the array are the cardinalities of outcomes and private settings,
InflationProblem.py 108-111, asserted in InflationLP.py 318-320). -/
def atomMarginal (P : List Nat → Rat) (a : Atom) : Option Rat := (I.rectified a).map fun rows => Marginal.computeMarginal I.outcomes I.priv P rows

/-- `knowable_values` of `set_distribution`, InflationLP.py 256-262, 317-323; `none` is an exception. -/
def distributionValues (P : List Nat → Rat) : Option (List (Mon × Option Rat)) :=
  (I.atomicFactors.filter I.knowable).mapM fun a => (I.atomMarginal P a).map fun v => ([a], some v)

/-- `set_distribution(P, use_lpi_constraints, shared_randomness)`, InflationLP.py 290-330, as a call of `set_values`. -/
def setDistribution (P : List Nat → Rat) (lpi shared : Bool) : Option (Call Mon) :=
  (I.distributionValues P).map fun v => .setValues v lpi shared

end Input

end Verif.EndToEnd

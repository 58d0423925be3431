import Verif.EndToEnd.Model
import Verif.SdpState.Model
import Verif.SdpRepr.Model
import Verif.SdpSolver.Model
import Verif.SymMM.ColumnsModel
import Verif.Normalization.Model
import Verif.Symmetry.Model
import Mathlib.Data.Real.Basic
/-!
The construction of the semidefinite program of `InflationSDP` from the arguments of `InflationProblem` and a generating set of monomials: `generate_relaxation`, `set_distribution` and
the arguments given to the solver, as the pieces modelled elsewhere (operator list, moment matrix, symmetries, representatives, factorisation, normalisation equalities, user-visible
state) put together in the order in which the code runs them.
Simplifications: as in `EndToEnd/Model.lean`; the generating set is given as ranks in canonical order (see C42 for the generating sets the code builds); `supports_problem=False`;
moments are used instead of their names.
-/
namespace Verif.SdpEnd
open Verif.Common Verif.Canon Verif.Scenario Verif.Components Verif.Moment Verif.MomentMatrix Verif.SymMM Verif.SdpRepr Verif.Symmetry
open Verif.State (Dict Mon)
open Verif.EndToEnd (Input)

/-- `self._nr_operators`, InflationSDP.py 132: the operators of the problem and, at rank 0, the zero operator. -/
def nOps (I : Input) : Nat := I.scenario.lexorder.length + 1

/-- `self._notcomm`, InflationSDP.py 187-191. -/
def notcomm (I : Input) : BMat := padMat (I.scenario.notcomm I.D.tbl I.anyNonclassical)

/-- `self._orthomat`, InflationSDP.py 167-177. -/
def orthomat (I : Input) : BMat := I.scenario.orthomat

/-- `self.all_operators_commute`, InflationSDP.py 192. -/
def allCommute (I : Input) : Bool := (List.range (nOps I)).all fun a => (List.range (nOps I)).all fun b => !notcomm I a b

/-- `self.lexorder_symmetries`, InflationSDP.py 153-154. -/
def symmetries (I : Input) : List (List Nat) := sdpSymmetries I.scenario

/-- The words whose letters are ranks of operators. -/
def InRange (I : Input) (w : List Nat) : Prop := ∀ x ∈ w, x < nOps I

instance (I : Input) (w : List Nat) : Decidable (InRange I w) := inferInstanceAs (Decidable (∀ x ∈ w, x < nOps I))

/-- The dictionaries `canon_lexmon_from_hash` and `canonsym_lexmon_from_hash` after some history of calls on words of operators. -/
def Reached (I : Input) (m : Mem) : Prop :=
  ∃ history : List SdpRepr.Call, (∀ c ∈ history, match c with | .canon _ w => InRange I w | .repr _ w => InRange I w) ∧
    m = after (notcomm I) (orthomat I) (allCommute I) (symmetries I) history

/-- `_AtomicMonomial`, InflationSDP.py 1327-1361: the atom of a word is the representative of the word, or the atom already stored for that representative. What the dictionaries contain
when a word is looked up for the first time depends on everything done before, so this is a relation: the word has been looked up after some history. -/
inductive AtomOf (I : Input) : List Nat → Atom → Prop
  | direct {w : List Nat} {m : Mem} (h : Reached I m) : AtomOf I w (reprMemo (notcomm I) (orthomat I) (allCommute I) (symmetries I) m false w).2
  | stored {w : List Nat} {m : Mem} {a : Atom} (h : Reached I m) (ha : AtomOf I (reprMemo (notcomm I) (orthomat I) (allCommute I) (symmetries I) m false w).2 a) : AtomOf I w a

/-- The results of the two memoised functions `_AtomicMonomial` and `InternalAtomicMonomialSDP.dagger` (sdp/monomial_classes.py 77-104; words that are not
words of operators do not occur and are left alone). -/
structure Choice where
  atomOf : List Nat → Atom
  dagger : Atom → Atom

/-- The results are those computed at some time of some history. -/
structure Choice.Computed (ch : Choice) (I : Input) : Prop where
  atomOf : ∀ w, InRange I w → AtomOf I w (ch.atomOf w)
  dagger : ∀ a, InRange I a → ∃ m, Reached I m ∧ ch.dagger a = (conjugate (notcomm I) (orthomat I) (allCommute I) (symmetries I) m a).2
  other : ∀ a, ¬ InRange I a → ch.dagger a = a

/-- The operators of an atom (`as_2d_array`, lp/monomial_classes.py 65), the zero operator excepted. -/
def operators (I : Input) (a : Atom) : List Op := a.filterMap fun r => if r = 0 then none else I.scenario.lexorder[r - 1]?

/-- `is_zero`, lp/monomial_classes.py 70-73. -/
def isZero (a : Atom) : Bool := a.contains 0

/-- `is_do_conditional`, lp/monomial_classes.py 76-83. -/
def doConditional (I : Input) (a : Atom) : Bool := a.isEmpty || isZero a || Knowable.isDoConditional I.scenario.nSources (operators I a)

/-- `is_knowable`, lp/monomial_classes.py 76-87. -/
def knowable (I : Input) (a : Atom) : Bool :=
  a.isEmpty || isZero a || (doConditional I a && allCommuting (notcomm I) (allCommute I) a &&
    Knowable.atomicKnowable I.scenario.nSources I.isNetwork I.parents I.dims (operators I a) == some true)

/-- The properties of atoms which compound moments use. -/
def atomInfo (I : Input) (name : Atom → String) : AtomInfo := ⟨knowable I, doConditional I, isZero, name⟩

/-- The part of the environment that `_monomial_from_atoms` reads. -/
def protoEnv (I : Input) (ch : Choice) (name : Atom → String) : SdpState.Env Mon := ⟨atomInfo I name, ch.dagger, id, [], [], false, none, []⟩

/-- `Moment_1d`, InflationSDP.py 1402-1430. The zero operator alone gives the zero moment (its rank becomes -1, which is a single operator for `factorize_monomial_1d`). -/
def momentOf (I : Input) (ch : Choice) (name : Atom → String) (w : List Nat) : Mon :=
  if w.contains 0 then [[0]]
  else SdpState.monFromAtoms (protoEnv I ch name)
    (((factorize I.scenario (w.map (· - 1))).filter fun f => !f.isEmpty).map fun f => ch.atomOf (f.map (· + 1)))

/-- `unsymmetrized_corresp`, InflationSDP.py 1803-1806: the monomial of an index of the unsymmetrized moment matrix. -/
def corresp (tbl : List (List Nat × Nat)) (idx : Nat) : Option (List Nat) := (tbl.find? fun t => t.2 == idx).map Prod.fst

/-- `symmetrized_corresp`, InflationSDP.py 332-334; `none` is a `KeyError`. -/
def symmetrizedCorresp (orbits : List (Nat × Nat)) (tbl : List (List Nat × Nat)) (repr : List Nat) : Option (Dict Nat (List Nat)) :=
  (repr.filter fun idx => decide (1 ≤ idx)).foldlM (fun d idx => (orbits.lookup idx).bind fun o => (corresp tbl idx).map fun w => Dict.set d o w) []

/-- `compmoment_from_idx`, InflationSDP.py 347-354. -/
def momentIndex (I : Input) (ch : Choice) (name : Atom → String) (hasZero : Bool) (c : Dict Nat (List Nat)) : Dict Nat Mon :=
  c.foldl (fun d t => d.set t.1 (momentOf I ch name t.2)) (if hasZero then [(0, [[0]])] else [])

/-- One normalisation equality, InflationSDP.py 398-404; `none` is a `KeyError`, or the `TypeError` of `itemgetter` with a single key. -/
def momentRow (index : Dict Nat Mon) (eq : Nat × List Nat) : Option (Dict Mon Rat) :=
  if eq.2.length < 2 then none
  else (Dict.get index eq.1).bind fun n => (eq.2.mapM fun i => Dict.get index i).map fun s => s.foldl (fun d m => Dict.set d m (-1)) [(n, 1)]

/-- `self.has_children`, InflationSDP.py 92-97. -/
def withChildren (I : Input) (p : Nat) : Bool := I.hasChildren p || I.allOutcomes

/-- `self.outcome_cardinalities`, InflationSDP.py 91, 101. -/
def cardinalities (I : Input) (p : Nat) : Nat := I.outcomes.getD p 0 + if withChildren I p then 1 else 0

/-- `idx_level_equalities`, InflationSDP.py 388-396: only for problems which are not networks. -/
def indexEqualities (I : Input) (cols : List (List Nat)) (sym : List Nat) : Option (List (Nat × List Nat)) :=
  if I.isNetwork then some []
  else (Normalization.discover (Normalization.lastOutcomeMask I.scenario.lexorder (withChildren I) (cardinalities I))
    (Normalization.orthoDict (Normalization.scenarioGroups I.scenario)) cols).map fun eqs =>
      Normalization.construct eqs ((List.range cols.length).map fun i => (List.range cols.length).map fun j => sym.getD (i * cols.length + j) 0)

/-- What `generate_relaxation` leaves behind: the moment matrix of indices (row after row), the moment of each index, and the user-visible part. -/
structure Built where
  sym : List Nat
  index : Dict Nat Mon
  env : SdpState.Env Mon

/-- `hermitian_moments`, InflationSDP.py 370-375. -/
def hermitianMoments (I : Input) (ch : Choice) (moments : List Mon) : List Mon :=
  if allCommute I then moments else moments.filter fun m => m.all fun a => decide (ch.dagger a = a)

/-- `generate_relaxation`, InflationSDP.py 224-415; `none` when an assertion fails (such as the one at 357-358: two indices with the same moment) or an exception is raised. -/
def build (I : Input) (cols : List (List Nat)) (ch : Choice) (name : Atom → String) : Option Built :=
  (relaxationMatrix (notcomm I) (orthomat I) (allCommute I) cols (symmetries I)).bind fun r =>
  (symmetrizedCorresp r.2.1 (momentMatrix (notcomm I) (orthomat I) (allCommute I) cols).tbl r.2.2).bind fun c =>
    let index := momentIndex I ch name (r.1.contains 0) c
    let moments := index.map Prod.snd
    if moments.Nodup then
      (indexEqualities I cols r.1).bind fun eqs =>
      (eqs.mapM (momentRow index)).map fun rows =>
        ⟨r.1, index, ⟨atomInfo I name, ch.dagger, id, moments, hermitianMoments I ch moments, false, if r.1.contains 0 then some [[0]] else none, rows⟩⟩
    else none

/-- `_construct_mask_matrices`, InflationSDP.py 1457-1469, and the mask of the constant term, 2178-2179. -/
def masks (n : Nat) (B : Built) : Dict (Option Mon) (SdpSolver.Mat n ℝ) :=
  (B.index.map fun t => (some t.2, fun (i j : Fin n) => if B.sym[i.val * n + j.val]? = some t.1 then 1 else 0)) ++ [(none, fun _ _ => 0)]

/-- Coefficients as real numbers. -/
def realRow {α : Type} (d : Dict α Rat) : Dict α ℝ := d.map fun t => (t.1, ((t.2 : Rat) : ℝ))

/-- The arguments of `solveSDP_MosekFUSION`, InflationSDP.py 2112-2180. -/
def solverInput (n : Nat) (B : Built) (a : SdpState.Args) : SdpSolver.Input (Option Mon) ℝ n where
  masks := masks n B
  objective := a.objective.map fun t => (some t.1, ((t.2 : Rat) : ℝ))
  known := realRow a.known
  semiknown := a.semi.map fun t => (some t.1, ((t.2.1 : Rat) : ℝ), some t.2.2)
  ineqs := a.inequalities.map realRow
  eqs := a.equalities.map realRow

/-- `atomic_monomials`, InflationSDP.py 529-535. -/
def atomicMonomials (B : Built) : List Mon := (sortBy atomLe (dedupB B.env.moments.flatten)).map fun a => SdpState.monFromAtoms B.env [a]

/-- `rectified_ndarray`, lp/monomial_classes.py 88-98. -/
def rectified (I : Input) (a : Atom) : Option (List Marginal.Row) :=
  if a.isEmpty || isZero a then some []
  else (Knowable.rectify I.dims (Knowable.rowsOf (operators I a))).map fun rows => rows.map fun r => ⟨r.1, r.2.1, r.2.2⟩

/-- `InternalAtomicMonomial.compute_marginal`, lp/monomial_classes.py 199-219. -/
def atomMarginal (I : Input) (P : List Nat → Rat) (a : Atom) : Option Rat :=
  if isZero a then some 0 else (rectified I a).map fun rows => Marginal.computeMarginal I.outcomes I.priv P rows

/-- `CompoundMoment.compute_marginal`, lp/monomial_classes.py 341-366 (powers of repeated factors are repeated factors). -/
def momentMarginal (I : Input) (P : List Nat → Rat) (m : Mon) : Option Rat := (m.mapM (atomMarginal I P)).map List.prod

/-- `knowable_values` of `set_distribution`, InflationSDP.py 576-580. -/
def distributionValues (I : Input) (B : Built) (P : List Nat → Rat) : Option (List (Mon × Option Rat)) :=
  ((atomicMonomials B).filter fun m => m.all (knowable I)).mapM fun m => (momentMarginal I P m).map fun v => (m, some v)

/-- `set_distribution(P, use_lpi_constraints, shared_randomness)`, InflationSDP.py 548-585, as a call of `set_values`. -/
def setDistribution (I : Input) (B : Built) (P : List Nat → Rat) (lpi shared : Bool) : Option (SdpState.Call Mon) :=
  (distributionValues I B P).map fun v => .setValues v lpi shared

end Verif.SdpEnd

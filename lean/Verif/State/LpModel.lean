import Verif.State.Dict
import Verif.Common.Unique
import Verif.Moment.Model
/-
Model of the user-visible state of `InflationLP` (inflation/lp/InflationLP.py): known and semi-known moments, bounds, objective, extra constraints, cached views and
the stored solution, and of every public call that changes or reads them. A compound moment is its sorted list of atoms (the key of `monomial_from_atoms`, and by
C24 two moments are equal exactly when these lists are). Floats are exact rationals; `NaN` values are `none`; symbolic values, warnings, and `verbose > 0` (which may
raise) are not modelled. The keys given by the user are turned into moments by `san` (`_sanitise_monomial`), which is left abstract.
-/
namespace Verif.State
open Verif.Common Verif.Moment

abbrev Mon := List Atom

/-- What does not change after construction. `monomials`: `self.monomials`; `supports`: `self.supports_problem`; `minEq`, `minIneq`: the generated constraints
(`minimal_sparse_equalities`, `minimal_sparse_inequalities`) as lists of rows `column ↦ coefficient`. -/
structure Env (K : Type) where
  info : AtomInfo
  san : K → Mon
  monomials : List Mon
  supports : Bool
  minEq : List (Dict Nat Rat)
  minIneq : List (Dict Nat Rat)

/-- `self.One`, InflationLP.py 194. -/
def one : Mon := []

/-- The arguments given to the solver: rows `column ↦ coefficient`. -/
structure Args where
  objective : Dict Nat Rat
  known : Dict Nat Rat
  equalities : List (Dict Nat Rat)
  inequalities : List (Dict Nat Rat)
  lower : Dict Nat Rat
  upper : Dict Nat Rat
deriving DecidableEq

/-- The fields of the solver's answer which `solve` reads. -/
structure SolverOut where
  success : Bool
  status : String
  primal : Rat

/-- `status`, and, after `solve`, `objective_value` (a number or the status), InflationLP.py 619-630. -/
inductive Result
  | notSolved
  | solved (status : String) (objectiveValue : Rat)
  | failed (status : String)
deriving DecidableEq

/-- A row of a by-name view: names of variables ↦ coefficients. -/
abbrev NameRow := Dict String Rat

structure LpState where
  known : Dict Mon Rat
  semi : Dict Mon (Rat × Mon)
  lower : Dict Mon Rat
  upper : Dict Mon Rat
  objective : Dict Mon Rat
  maximize : Bool
  extraEq : List (Dict Mon Rat)
  extraIneq : List (Dict Mon Rat)
  useLpi : Bool
  result : Result
  cachedEq : Option (List NameRow)
  cachedIneq : Option (List NameRow)

variable {K : Type}

/-- `_reset_solution`, InflationLP.py 1718-1730. -/
def resetSolution (s : LpState) : LpState := { s with result := .notSolved }

/-- `_reset_values`, InflationLP.py 1710-1718. -/
def resetValues (s : LpState) : LpState :=
  { resetSolution s with known := [(one, 1)], semi := [], extraEq := [], extraIneq := [] }

/-- `_reset_lowerbounds`, InflationLP.py 1692-1695. -/
def resetLower (s : LpState) : LpState := { resetSolution s with lower := [] }

/-- `_reset_upperbounds`, InflationLP.py 1697-1700. -/
def resetUpper (s : LpState) : LpState := { resetSolution s with upper := [] }

/-- `_reset_objective`, InflationLP.py 1702-1706. -/
def resetObjective (s : LpState) : LpState := { resetSolution s with objective := [], maximize := true }

/-- `_cleanup_after_set_values`, InflationLP.py 1665-1686. -/
def cleanup (E : Env K) (s : LpState) : LpState :=
  let s :=
    if E.supports then
      { s with
        lower := (s.known.filter fun t => !(isClose0 t.2)).foldl (fun d t => d.set t.1 1) s.lower
        known := s.known.filter fun t => isClose0 t.2
        semi := [] }
    else s
  { s with semi := s.semi.filter fun t => !(decide (t.1 ∈ s.known.keys)) }

/-- The loop over the given values, InflationLP.py 421-430 (`NaN` entries are skipped). -/
def assignValues (E : Env K) (values : List (K × Option Rat)) (known : Dict Mon Rat) : Dict Mon Rat :=
  values.foldl (fun d t => match t.2 with | none => d | some v => d.set (E.san t.1) v) known

/-- `atomic_knowns`, InflationLP.py 432-434. -/
def atomicKnowns (known : Dict Mon Rat) : Dict Atom Rat :=
  known.filterMap fun t => match t.1 with | [a] => some (a, t.2) | _ => none

/-- `remaining_mons`, InflationLP.py 441-454. -/
def remainingMons (E : Env K) (atomics : Dict Atom Rat) (lpi : Bool) : List Mon :=
  if atomics.all fun t => E.info.knowable t.1 then
    if !lpi then E.monomials.filter fun m => !(compound E.info m).isAtomic && (compound E.info m).isKnowable
    else E.monomials.filter fun m =>
      !(compound E.info m).isAtomic && ((compound E.info m).status == .knowable || (compound E.info m).status == .semi)
  else E.monomials.filter fun m => !(compound E.info m).isAtomic

/-- One iteration of the evaluation loop, InflationLP.py 456-475; `_monomial_from_atoms` sorts the atoms (1019). -/
def evalMon (E : Env K) (atomics : Dict Atom Rat) (lpi : Bool) (st : Dict Mon Rat × Dict Mon (Rat × Mon)) (m : Mon) :
    Dict Mon Rat × Dict Mon (Rat × Mon) :=
  let r := evaluate (compound E.info m) atomics.get lpi
  match r.2.2 with
  | .known => (st.1.set m r.1, st.2)
  | .semi => if lpi then (st.1, st.2.set m (r.1, sortBy atomLe r.2.1)) else st
  | .unknown => st

/-- `update_values`, InflationLP.py 376-481. -/
def updateValues (E : Env K) (values : List (K × Option Rat)) (lpi onlySpecified : Bool) (s : LpState) : LpState :=
  if values.isEmpty then s
  else
    let s := { resetSolution s with useLpi := lpi }
    let known := assignValues E values s.known
    if onlySpecified then cleanup E { s with known := known }
    else
      let atomics := atomicKnowns known
      let known := known.filter fun t => decide (t.1 ∈ E.monomials)
      let r := (remainingMons E atomics lpi).foldl (evalMon E atomics lpi) (known, s.semi)
      cleanup E { s with known := r.1, semi := r.2 }

/-- `set_values`, InflationLP.py 483-510. `set_distribution` (290-330) calls it with the marginals of the distribution for the knowable atoms. -/
def setValues (E : Env K) (values : List (K × Option Rat)) (lpi onlySpecified : Bool) (s : LpState) : LpState :=
  let s := resetValues s
  if values.isEmpty then cleanup E s else updateValues E values lpi onlySpecified s

/-- `_sanitise_dict`, InflationLP.py 1110-1135 (for dictionaries). -/
def sanitiseDict (E : Env K) (d : List (K × Rat)) : Dict Mon Rat :=
  d.foldl (fun out t => if isClose0 t.2 then out else out.set (E.san t.1) ((out.get (E.san t.1)).getD 0 + t.2)) []

/-- `set_objective`, InflationLP.py 332-370, when its assertions hold; `none` is `objective=None`. A failing assertion on foreign monomials happens after the
assignment and leaves the state below. -/
def setObjective (E : Env K) (obj : Option (List (K × Rat))) (maximize : Bool) (s : LpState) : LpState :=
  let s := { resetObjective s with maximize := maximize }
  match obj with
  | none => s
  | some d => { s with objective := (sanitiseDict E d).map fun t => (t.1, (if maximize then 1 else -1) * t.2) }

/-- The sanitising loop of `_set_lowerbounds`/`_set_upperbounds`, InflationLP.py 1999-2010, 2023-2034: `none` is the failed assertion; `np.isclose(a, b)` with the default
tolerances. -/
def sanitiseBounds (E : Env K) : List (K × Rat) → Dict Mon Rat → Option (Dict Mon Rat)
  | [], d => some d
  | (k, v) :: l, d =>
    match d.get (E.san k) with
    | none => sanitiseBounds E l (d.set (E.san k) v)
    | some old => if |old - v| ≤ 1 / 100000000 + 1 / 100000 * |v| then sanitiseBounds E l d else none

/-- `_set_lowerbounds`, InflationLP.py 2012-2035. When the assertion fails the bounds have already been reset. -/
def setLower (E : Env K) (b : Option (List (K × Rat))) (s : LpState) : LpState :=
  match b with
  | none => resetLower s
  | some l => match sanitiseBounds E l [] with | some d => { resetLower s with lower := d } | none => resetLower s

/-- `_set_upperbounds`, InflationLP.py 1986-2010. -/
def setUpper (E : Env K) (b : Option (List (K × Rat))) (s : LpState) : LpState :=
  match b with
  | none => resetUpper s
  | some l => match sanitiseBounds E l [] with | some d => { resetUpper s with upper := d } | none => resetUpper s

/-- `set_extra_equalities`, InflationLP.py 511-526. -/
def setExtraEq (E : Env K) (l : List (List (K × Rat))) (s : LpState) : LpState := { s with extraEq := l.map (sanitiseDict E) }

/-- `set_extra_inequalities`, InflationLP.py 528-544. -/
def setExtraIneq (E : Env K) (l : List (List (K × Rat))) (s : LpState) : LpState := { s with extraIneq := l.map (sanitiseDict E) }

/-- `compmonomial_to_idx`, InflationLP.py 1318: the position of a moment among the variables (the last one if repeated, which an assertion excludes). -/
def toIdx (E : Env K) (m : Mon) : Option Nat := E.monomials.findIdx? (fun x => decide (x = m))

/-- `_mon_dict_to_coo_vec` and the rows of `sparse_extra_equalities`, InflationLP.py 1446-1458, 1595-1604: `none` is a `KeyError`. -/
def toRow (E : Env K) (d : Dict Mon Rat) : Option (Dict Nat Rat) := d.mapM fun t => (toIdx E t.1).map fun i => (i, t.2)

/-- The rows of `sparse_semiknown`, InflationLP.py 1820-1832: `x - c·x2 = 0`. -/
def semiRow (E : Env K) (t : Mon × Rat × Mon) : Option (Dict Nat Rat) :=
  (toIdx E t.1).bind fun i => (toIdx E t.2.2).map fun j => [(i, 1), (j, -t.2.1)]

/-- `sparse_equalities`, InflationLP.py 1460-1464. -/
def sparseEq (E : Env K) (s : LpState) : Option (List (Dict Nat Rat)) := (s.extraEq.mapM (toRow E)).map (E.minEq ++ ·)

/-- `sparse_inequalities`, InflationLP.py 1528-1532. -/
def sparseIneq (E : Env K) (s : LpState) : Option (List (Dict Nat Rat)) := (s.extraIneq.mapM (toRow E)).map (E.minIneq ++ ·)

/-- `_prepare_solver_matrices(separate_bounds=True)`, InflationLP.py 1846-1889; `none`: the assertion on the known moments or a `KeyError`. -/
def solverArgs (E : Env K) (s : LpState) : Option Args :=
  if s.known.keys.all fun m => decide (m ∈ E.monomials) then do
    let eqs ← sparseEq E s
    let semis ← s.semi.mapM (semiRow E)
    let ineqs ← sparseIneq E s
    let obj ← toRow E s.objective
    let known ← toRow E s.known
    let lower ← toRow E s.lower
    let upper ← toRow E s.upper
    some ⟨obj, known, eqs ++ semis, ineqs, lower, upper⟩
  else none

/-- `solve`, InflationLP.py 544-625, for a solver `solver`; when preparing the arguments raises, nothing changes. Overriding the arguments, and the relaxations, are not
part of this model (see the model of the solver interface for the latter). -/
def solve (E : Env K) (solver : Args → SolverOut) (s : LpState) : LpState :=
  match solverArgs E s with
  | none => s
  | some a =>
    let o := solver a
    { s with result := if o.success then .solved o.status (o.primal * (if s.maximize then 1 else -1)) else .failed o.status }

/-- A row of `coo_array.tolil()`, as used in InflationLP.py 1588-1589: the columns in increasing order, entries in the same column added up. -/
def lilRow (r : Dict Nat Rat) : Dict Nat Rat := (npUnique (r.map Prod.fst)).map fun c => (c, ((r.filter fun t => decide (t.1 = c)).map Prod.snd).sum)

/-- `_coo_vec_to_mon_dict`, InflationLP.py 1534-1551, of a row of the matrix. -/
def rowByMon (E : Env K) (r : Dict Nat Rat) : Dict Mon Rat := (lilRow r).foldl (fun d t => d.set (E.monomials.getD t.1 one) t.2) []

/-- `_coo_vec_to_name_dict`, InflationLP.py 1554-1571, of a row of the matrix. -/
def rowByName (E : Env K) (r : Dict Nat Rat) : NameRow :=
  (lilRow r).foldl (fun d t => d.set (compound E.info (E.monomials.getD t.1 one)).name t.2) []

/-- `moment_equalities_by_name`, a `cached_property`, InflationLP.py 1737-1740: the value returned and the new state. -/
def eqByName (E : Env K) (s : LpState) : Option (List NameRow) × LpState :=
  match s.cachedEq with
  | some c => (some c, s)
  | none => match sparseEq E s with
    | none => (none, s)
    | some rows => (some (rows.map (rowByName E)), { s with cachedEq := some (rows.map (rowByName E)) })

/-- `moment_inequalities_by_name`, a `cached_property`, InflationLP.py 1742-1746. -/
def ineqByName (E : Env K) (s : LpState) : Option (List NameRow) × LpState :=
  match s.cachedIneq with
  | some c => (some c, s)
  | none => match sparseIneq E s with
    | none => (none, s)
    | some rows => (some (rows.map (rowByName E)), { s with cachedIneq := some (rows.map (rowByName E)) })

/-- The equalities and inequalities returned by `_prepare_solver_arguments`, InflationLP.py 1935-1957. With `separate_bounds=False` the bounds are appended to the cached list itself
(`solverargs["inequalities"].extend(...)`; the entry of the constant overwrites that of a moment named `1`). The other entries are modelled in `Verif.Views`. -/
def argsByName (E : Env K) (separate : Bool) (s : LpState) : Option (List NameRow) × Option (List NameRow) × LpState :=
  let (e, s) := eqByName E s
  let (i, s) := ineqByName E s
  if separate then (e, i, s)
  else
    let lo : List NameRow := s.lower.map fun t => Dict.set [((compound E.info t.1).name, (1 : Rat))] "1" (-t.2)
    let up : List NameRow := s.upper.map fun t => Dict.set [((compound E.info t.1).name, (-1 : Rat))] "1" t.2
    let i' := i.map (· ++ lo ++ up)
    (e, i', { s with cachedIneq := match i' with | some c => some c | none => s.cachedIneq })

/-- What `reset` accepts, InflationLP.py 879-908. -/
inductive Which
  | all | bounds | lowerbounds | upperbounds | objective | values
deriving DecidableEq

/-- `reset`, InflationLP.py 879-908. -/
def reset : Which → LpState → LpState
  | .all, s => resetValues (resetObjective (resetUpper (resetLower s)))
  | .bounds, s => resetUpper (resetLower s)
  | .lowerbounds, s => resetLower s
  | .upperbounds, s => resetUpper s
  | .objective, s => resetObjective s
  | .values, s => resetValues s

/-- The public calls. -/
inductive Call (K : Type)
  | setValues (values : List (K × Option Rat)) (lpi onlySpecified : Bool)
  | updateValues (values : List (K × Option Rat)) (lpi onlySpecified : Bool)
  | setObjective (obj : Option (List (K × Rat))) (maximize : Bool)
  | setLower (b : Option (List (K × Rat)))
  | setUpper (b : Option (List (K × Rat)))
  | setExtraEq (l : List (List (K × Rat)))
  | setExtraIneq (l : List (List (K × Rat)))
  | reset (w : Which)
  | solve
  | readEqByName
  | readIneqByName
  | prepareArguments (separate : Bool)

/-- The effect of a call. -/
def step (E : Env K) (solver : Args → SolverOut) (s : LpState) : Call K → LpState
  | .setValues v lpi o => setValues E v lpi o s
  | .updateValues v lpi o => updateValues E v lpi o s
  | .setObjective o m => setObjective E o m s
  | .setLower b => setLower E b s
  | .setUpper b => setUpper E b s
  | .setExtraEq l => setExtraEq E l s
  | .setExtraIneq l => setExtraIneq E l s
  | .reset w => reset w s
  | .solve => solve E solver s
  | .readEqByName => (eqByName E s).2
  | .readIneqByName => (ineqByName E s).2
  | .prepareArguments b => (argsByName E b s).2.2

/-- The state after construction: the last lines of `_generate_lp`, InflationLP.py 1350-1353, and 1.179. -/
def init (E : Env K) : LpState :=
  setValues E [] false false
    (setObjective E none true (setUpper E none (setLower E none ⟨[], [], [], [], [], true, [], [], false, .notSolved, none, none⟩)))

/-- Any history of calls. -/
def run (E : Env K) (solver : Args → SolverOut) (h : List (Call K)) : LpState := h.foldl (step E solver) (init E)

end Verif.State

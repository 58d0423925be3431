import Verif.State.Dict
import Verif.State.LpSpec
import Verif.Moment.Model
/-
Model of the user-visible state of `InflationSDP` (inflation/sdp/InflationSDP.py): known and semi-known moments, bounds, objective and processed objective, extra
constraints and the stored solution, and of every public call that changes them. A compound moment is its list of atoms in the form produced by `_monomial_from_atoms`.
Calls may raise; the state they leave behind when they do is modelled as well. Floats are exact rationals, `NaN` values are `none`; symbolic values, warnings and
printing are not modelled. The keys given by the user are turned into moments by `san` (`_sanitise_moment`), which is left abstract. Moments are used in place of
their names in the arguments of the solver.
-/
namespace Verif.SdpState
open Verif.Common Verif.Moment
open Verif.State (Dict Mon)

/-- What does not change after `generate_relaxation`. `moments`: `self.moments`; `hermitian`: `self.hermitian_moments`; `zero`: `self.Zero` if the moment matrix has a zero;
`minEq`: `self.minimal_equalities`. `self.minimal_inequalities` is always empty (InflationSDP.py 406). -/
structure Env (K : Type) where
  info : AtomInfo
  dagger : Atom → Atom
  san : K → Mon
  moments : List Mon
  hermitian : List Mon
  supports : Bool
  zero : Option Mon
  minEq : List (Dict Mon Rat)

/-- `self.One`. -/
def one : Mon := []

/-- The exceptions. -/
inductive Err
  /-- the assertion in `_update_bounds` -/
  | valueContradictsBound
  /-- the `TypeError` in `_update_objective` -/
  | semiknownInObjective
  /-- the assertion in `set_bounds` -/
  | contradictoryBounds
  /-- the assertion on foreign monomials in `set_objective` -/
  | foreignObjective
  /-- the assertion on support problems in `set_objective` -/
  | supportsObjective
  /-- the assertion in `_prepare_solver_arguments` -/
  | foreignKnown
deriving DecidableEq

/-- A row over the moments and the constant term (`none`, `self.constant_term_name`). -/
abbrev Row := Dict (Option Mon) Rat

/-- The arguments given to the solver, except the mask matrices, which do not change. -/
structure Args where
  objective : Dict Mon Rat
  known : Dict (Option Mon) Rat
  semi : Dict Mon (Rat × Mon)
  equalities : List Row
  inequalities : List Row
deriving DecidableEq

/-- The fields of the solver's answer which `solve` reads. -/
structure SolverOut where
  status : String
  primal : Rat

/-- `status` and `objective_value`, InflationSDP.py 821-830. -/
inductive Result
  | notSolved
  | solved (objectiveValue : Rat)
  | failed (status : String)
deriving DecidableEq

structure St where
  known : Dict Mon Rat
  semi : Dict Mon (Rat × Mon)
  lower : Dict Mon Rat
  upper : Dict Mon Rat
  objective : Dict Mon Rat
  processed : Dict Mon Rat
  maximize : Bool
  extraEq : List (Dict Mon Rat)
  extraIneq : List (Dict Mon Rat)
  useLpi : Bool
  result : Result

/-- What a call leaves behind: the state, and the exception if it raises. -/
abbrev Out := St × Option Err

/-- Run the next statement unless an exception has been raised. -/
def andThen (r : Out) (f : St → Out) : Out :=
  match r.2 with
  | none => f r.1
  | some _ => r

variable {K : Type}

/-- `_monomial_from_atoms`, InflationSDP.py 1496-1507. -/
def monFromAtoms (E : Env K) (atoms : List Atom) : Mon :=
  let l := match atoms.find? E.info.zero with
    | some z => [z]
    | none => atoms.filter fun a => !a.isEmpty
  let d := sortBy atomLe l
  let c := sortBy atomLe (d.map E.dagger)
  if tupleLe d c then d else c

/-- `_reset_solution`, InflationSDP.py 2182-2193. -/
def resetSolution (s : St) : St := { s with result := .notSolved }

/-- One iteration of the loop of `_update_bounds` for a known moment, InflationSDP.py 2061-2071; `good b v` is the condition. -/
def boundStep (good : Rat → Rat → Bool) (bounds : Dict Mon Rat) (t : Mon × Rat) : Except (Dict Mon Rat) (Dict Mon Rat) :=
  match bounds.get t.1 with
  | none => .ok bounds
  | some b => if good b t.2 then .ok (bounds.erase t.1) else .error bounds

/-- The loop of `_update_bounds`: an exception leaves the bounds reached so far. -/
def boundLoop (good : Rat → Rat → Bool) : Dict Mon Rat → Dict Mon Rat → Except (Dict Mon Rat) (Dict Mon Rat)
  | [], bounds => .ok bounds
  | t :: l, bounds => match boundStep good bounds t with
    | .ok b => boundLoop good l b
    | .error b => .error b

/-- `_update_bounds("lo")`, InflationSDP.py 2043-2071. -/
def updateLower (s : St) : Out :=
  match boundLoop (fun b v => decide (b ≤ v)) s.known s.lower with
  | .ok b => ({ s with lower := b }, none)
  | .error b => ({ s with lower := b }, some .valueContradictsBound)

/-- `_update_bounds("up")`. -/
def updateUpper (s : St) : Out :=
  match boundLoop (fun b v => decide (v ≤ b)) s.known s.upper with
  | .ok b => ({ s with upper := b }, none)
  | .error b => ({ s with upper := b }, some .valueContradictsBound)

/-- Substituting the known moments in the objective, InflationSDP.py 2022-2031. The set of known moments in the objective is processed in the order of the objective. -/
def processKnown (known : Dict Mon Rat) (objective : Dict Mon Rat) : Dict Mon Rat :=
  (objective.filter fun t => !(decide (t.1 = one)) && (known.get t.1).isSome).foldl
    (fun p t => (p.set one ((p.get one).getD 0 + t.2 * (known.get t.1).getD 0)).erase t.1) objective

/-- `_update_objective`, InflationSDP.py 2018-2041. The loop over the semi-known moments of the objective iterates over the pair (coefficient, moment) and raises
at the first one. -/
def updateObjective (s : St) : Out :=
  let p := processKnown s.known s.objective
  ({ s with processed := p }, if p.any fun t => (s.semi.get t.1).isSome then some .semiknownInObjective else none)

/-- The end of `_cleanup_after_set_values`: known moments are removed from the semi-known ones, InflationSDP.py 1981-1983. -/
def dropSemi (s : St) : Out :=
  ({ s with semi := s.semi.filter fun t => !(decide (t.1 ∈ s.known.keys)) }, none)

/-- The support part of `_cleanup_after_set_values`, InflationSDP.py 1960-1969. -/
def supportsStep (E : Env K) (s : St) : St :=
  if E.supports then
    { s with
      lower := (s.known.filter fun t => !(isClose0 t.2)).foldl (fun d t => d.set t.1 1) s.lower
      known := s.known.filter fun t => isClose0 t.2
      semi := [] }
  else s

/-- `_cleanup_after_set_values`, InflationSDP.py 1957-1986. -/
def cleanup (E : Env K) (s : St) : Out :=
  andThen (andThen (andThen (updateLower (supportsStep E s)) updateUpper) updateObjective) dropSemi

/-- `{m: 0. for m in self.hermitian_moments}`. -/
def defaultLower (E : Env K) : Dict Mon Rat := E.hermitian.foldl (fun d m => d.set m 0) []

/-- `_reset_lowerbounds`, InflationSDP.py 1988-1992. -/
def resetLower (E : Env K) (s : St) : Out := updateLower { resetSolution s with lower := defaultLower E }

/-- `_reset_upperbounds`, InflationSDP.py 1994-1997. -/
def resetUpper (s : St) : Out := ({ resetSolution s with upper := [] }, none)

/-- `_reset_objective`, InflationSDP.py 1999-2004. -/
def resetObjective (s : St) : St := { resetSolution s with objective := [(one, 0)], processed := [(one, 0)], maximize := true }

/-- `_reset_values`, InflationSDP.py 2006-2016. -/
def resetValues (E : Env K) (s : St) : St :=
  { resetSolution s with
    known := (match E.zero with | some z => Dict.set [] z 0 | none => ([] : Dict Mon Rat)).set one 1
    semi := []
    extraEq := []
    extraIneq := [] }

/-- The loop over the given values, InflationSDP.py 683-696 (`NaN` entries are skipped). -/
def assignValues (E : Env K) (values : List (K × Option Rat)) (known : Dict Mon Rat) : Dict Mon Rat :=
  values.foldl (fun d t => match t.2 with | none => d | some v => d.set (E.san t.1) v) known

/-- `atomic_knowns`, InflationSDP.py 702-706: the known atoms, then their adjoints. -/
def atomicKnowns (E : Env K) (known : Dict Mon Rat) : Dict Atom Rat :=
  let l : Dict Atom Rat := known.filterMap fun t => match t.1 with | [a] => some (a, t.2) | _ => none
  l.foldl (fun d t => d.set (E.dagger t.1) t.2) l

/-- `remaining_mons`, InflationSDP.py 712-725. -/
def remainingMons (E : Env K) (atomics : Dict Atom Rat) (lpi : Bool) : List Mon :=
  if atomics.all fun t => E.info.knowable t.1 then
    if !lpi then E.moments.filter fun m => !(compoundSDP E.info E.dagger m).isAtomic && (compoundSDP E.info E.dagger m).isKnowable
    else E.moments.filter fun m =>
      !(compoundSDP E.info E.dagger m).isAtomic && ((compoundSDP E.info E.dagger m).status == .knowable || (compoundSDP E.info E.dagger m).status == .semi)
  else E.moments.filter fun m => !(compoundSDP E.info E.dagger m).isAtomic

/-- One iteration of the evaluation loop, InflationSDP.py 727-742. -/
def evalMon (E : Env K) (atomics : Dict Atom Rat) (lpi : Bool) (st : Dict Mon Rat × Dict Mon (Rat × Mon)) (m : Mon) :
    Dict Mon Rat × Dict Mon (Rat × Mon) :=
  let r := evaluate (compoundSDP E.info E.dagger m) atomics.get lpi
  match r.2.2 with
  | .known => (st.1.set m r.1, st.2)
  | .semi => if lpi then (st.1, st.2.set m (r.1, monFromAtoms E r.2.1)) else st
  | .unknown => st

/-- `update_values` up to the final clean-up, InflationSDP.py 673-747. -/
def preUpdate (E : Env K) (values : List (K × Option Rat)) (lpi onlySpecified : Bool) (s : St) : St :=
  let known := assignValues E values s.known
  let st :=
    if onlySpecified then (known, s.semi)
    else (remainingMons E (atomicKnowns E known) lpi).foldl (evalMon E (atomicKnowns E known) lpi) (known.filter fun t => decide (t.1 ∈ E.moments), s.semi)
  { resetSolution s with useLpi := lpi, known := st.1, semi := st.2 }

/-- `update_values`, InflationSDP.py 636-748. -/
def updateValues (E : Env K) (values : List (K × Option Rat)) (lpi onlySpecified : Bool) (s : St) : Out :=
  if values.isEmpty then (s, none) else cleanup E (preUpdate E values lpi onlySpecified s)

/-- `set_values`, InflationSDP.py 750-760. `set_distribution` (548-585) calls it with the marginals of the distribution for the knowable atoms. -/
def setValues (E : Env K) (values : List (K × Option Rat)) (lpi onlySpecified : Bool) (s : St) : Out :=
  let s := resetValues E s
  if values.isEmpty then cleanup E s else updateValues E values lpi onlySpecified s

/-- `_sanitise_dict`, InflationSDP.py 1578-1591 (for dictionaries). -/
def sanitiseDict (E : Env K) (d : List (K × Rat)) : Dict Mon Rat :=
  d.foldl (fun out t => if isClose0 t.2 then out else out.set (E.san t.1) ((out.get (E.san t.1)).getD 0 + t.2)) []

/-- `d.setdefault(k, v)`. -/
def setDefault (d : Dict Mon Rat) (k : Mon) (v : Rat) : Dict Mon Rat := if (d.get k).isSome then d else d.set k v

/-- The objective built from the user's dictionary, InflationSDP.py 624-627. -/
def newObjective (E : Env K) (d : List (K × Rat)) (maximize : Bool) : Dict Mon Rat :=
  setDefault ((sanitiseDict E d).map fun t => (t.1, (if maximize then 1 else -1) * t.2)) one 0

/-- `set_objective`, InflationSDP.py 587-634; `none` is `objective=None`. -/
def setObjective (E : Env K) (obj : Option (List (K × Rat))) (maximize : Bool) (s : St) : Out :=
  if E.supports && obj.isSome then (s, some .supportsObjective)
  else
    let s := { resetObjective s with maximize := maximize }
    match obj with
    | none => (s, none)
    | some d =>
      let o := newObjective E d maximize
      let s := { s with objective := o }
      if o.keys.all fun m => decide (m ∈ E.moments) then updateObjective s else (s, some .foreignObjective)

/-- The sanitising loop of `set_bounds`, InflationSDP.py 489-499: `none` is the failed assertion; `np.isclose(a, b)` with the default tolerances. -/
def sanitiseBounds (E : Env K) : List (K × Rat) → Dict Mon Rat → Option (Dict Mon Rat)
  | [], d => some d
  | (k, v) :: l, d =>
    match d.get (E.san k) with
    | none => sanitiseBounds E l (d.set (E.san k) v)
    | some old => if |old - v| ≤ 1 / 100000000 + 1 / 100000 * |v| then sanitiseBounds E l d else none

/-- `set_bounds(bounds, "up")`, InflationSDP.py 460-506. -/
def setUpper (E : Env K) (b : Option (List (K × Rat))) (s : St) : Out :=
  match b with
  | none => (s, none)
  | some l => match sanitiseBounds E l [] with
    | none => (s, some .contradictoryBounds)
    | some d => andThen (resetUpper s) fun s => updateUpper { s with upper := d }

/-- `set_bounds(bounds, "lo")`. -/
def setLower (E : Env K) (b : Option (List (K × Rat))) (s : St) : Out :=
  match b with
  | none => (s, none)
  | some l => match sanitiseBounds E l [] with
    | none => (s, some .contradictoryBounds)
    | some d => andThen (resetLower E s) fun s => updateLower { s with lower := d.foldl (fun b t => b.set t.1 t.2) s.lower }

/-- `set_extra_equalities`, InflationSDP.py 416-431. -/
def setExtraEq (E : Env K) (l : List (List (K × Rat))) (s : St) : St := { s with extraEq := l.map (sanitiseDict E) }

/-- `set_extra_inequalities`, InflationSDP.py 433-448. -/
def setExtraIneq (E : Env K) (l : List (List (K × Rat))) (s : St) : St := { s with extraIneq := l.map (sanitiseDict E) }

/-- `moment_equalities`, InflationSDP.py 451-454. -/
def momentEqualities (E : Env K) (s : St) : List (Dict Mon Rat) := E.minEq ++ s.extraEq

/-- `moment_inequalities`, InflationSDP.py 456-459. -/
def momentInequalities (s : St) : List (Dict Mon Rat) := s.extraIneq

/-- A row without constant term. -/
def rowOf (d : Dict Mon Rat) : Row := d.map fun t => (some t.1, t.2)

/-- The row of a lower bound, InflationSDP.py 2168-2172. -/
def lowerRow (t : Mon × Rat) : Row := (some t.1, 1) :: if isClose0 t.2 then [] else [(none, -t.2)]

/-- The row of an upper bound, InflationSDP.py 2173-2177. -/
def upperRow (t : Mon × Rat) : Row := (some t.1, -1) :: if isClose0 t.2 then [] else [(none, t.2)]

/-- `_prepare_solver_arguments`, InflationSDP.py 2112-2180. -/
def solverArgs (E : Env K) (s : St) : Option Args :=
  if s.known.keys.all fun m => decide (m ∈ E.moments) then
    some ⟨s.processed, (s.known.map fun t => (some t.1, t.2)) ++ [(none, 1)], s.semi, E.minEq.map rowOf, s.lower.map lowerRow ++ s.upper.map upperRow⟩
  else none

/-- `solve`, InflationSDP.py 762-831, for a solver `solver`, without overriding the arguments and with `feas_as_optim=False`. -/
def solve (E : Env K) (solver : Args → SolverOut) (s : St) : Out :=
  match solverArgs E s with
  | none => (s, some .foreignKnown)
  | some a =>
    let o := solver a
    ({ s with result := if o.status = "feasible" then .solved (o.primal * (if s.maximize then 1 else -1)) else .failed o.status }, none)

/-- What `reset` accepts. -/
inductive Which
  | all | bounds | lowerbounds | upperbounds | objective | values
deriving DecidableEq

/-- `reset`, InflationSDP.py 1261-1290. -/
def reset (E : Env K) : Which → St → Out
  | .all, s => andThen (andThen (resetLower E (resetValues E s)) resetUpper) fun s => (resetObjective s, none)
  | .bounds, s => andThen (resetLower E s) resetUpper
  | .lowerbounds, s => resetLower E s
  | .upperbounds, s => resetUpper s
  | .objective, s => (resetObjective s, none)
  | .values, s => (resetValues E s, none)

/-- The public calls. -/
inductive Call (K : Type)
  | setValues (values : List (K × Option Rat)) (lpi onlySpecified : Bool)
  | updateValues (values : List (K × Option Rat)) (lpi onlySpecified : Bool)
  | setObjective (obj : Option (List (K × Rat))) (maximize : Bool)
  | setLower (b : Option (List (K × Rat)))
  | setUpper (b : Option (List (K × Rat)))
  | setExtraEq (l : List (List (K × Rat)))
  | setExtraIneq (l : List (List (K × Rat)))
  | reset (w : Which)
  | solve

/-- The effect of a call. -/
def call (E : Env K) (solver : Args → SolverOut) (s : St) : Call K → Out
  | .setValues v lpi o => setValues E v lpi o s
  | .updateValues v lpi o => updateValues E v lpi o s
  | .setObjective o m => setObjective E o m s
  | .setLower b => setLower E b s
  | .setUpper b => setUpper E b s
  | .setExtraEq l => (setExtraEq E l s, none)
  | .setExtraIneq l => (setExtraIneq E l s, none)
  | .reset w => reset E w s
  | .solve => solve E solver s

/-- The state before the last lines of `generate_relaxation`, InflationSDP.py 406-408. -/
def blank (E : Env K) : St := ⟨[], [], defaultLower E, [], [], [], true, [], [], false, .notSolved⟩

/-- The state after `generate_relaxation`: `set_objective(None)` and `set_values(None)`, InflationSDP.py 410-411. -/
def init (E : Env K) : St := (setValues E [] false false (setObjective E none true (blank E)).1).1

/-- Any history of calls, the user catching every exception and going on. -/
def run (E : Env K) (solver : Args → SolverOut) (h : List (Call K)) : St := h.foldl (fun s c => (call E solver s c).1) (init E)

end Verif.SdpState

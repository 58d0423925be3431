import Verif.State.LpModel
import Verif.Writers.LpModel
/-
Model of the named views of an `InflationLP` and of the argument dictionaries built from them (inflation/lp/InflationLP.py 1534-1615, 1737-1957): what `write_to_file`
hands to the writers, and the variant of the matrices and of the dictionary in which the bounds are absorbed into the inequalities.
-/
namespace Verif.Views
open Verif.Common Verif.Moment Verif.State Verif.Writers

variable {K : Type}

/-- `mon.name`, monomial_utils.py 59-83. -/
def nameOf (E : Env K) (m : Mon) : String := (compound E.info m).name

/-- `monomial_names`, InflationLP.py 1321. -/
def monomialNames (E : Env K) : List String := E.monomials.map (nameOf E)

/-- `moment_equalities`, InflationLP.py 1606-1609: a property, computed at each access. -/
def equalitiesByMoment (E : Env K) (s : LpState) : Option (List (Dict Mon Rat)) := (sparseEq E s).map (·.map (rowByMon E))

/-- `moment_inequalities`, InflationLP.py 1611-1614. -/
def inequalitiesByMoment (E : Env K) (s : LpState) : Option (List (Dict Mon Rat)) := (sparseIneq E s).map (·.map (rowByMon E))

/-- `objective_by_name`, `known_vars_by_name`, `lowerbounds_by_name`, `upperbounds_by_name`, InflationLP.py 1773-1818; `none` is the `KeyError` of a moment that is not a variable. -/
def byName (E : Env K) (d : Dict Mon Rat) : Option NameRow := (toRow E d).map (rowByName E)

/-- `semiknown_by_name`, InflationLP.py 1835-1840. -/
def semiByName (E : Env K) (s : LpState) : Dict String (Rat × String) := s.semi.foldl (fun d t => d.set (nameOf E t.1) (t.2.1, nameOf E t.2.2)) []

/-- `constant_term_name`, InflationLP.py 34. -/
def constantTerm : String := "constant_term"

/-- The variables after the rectification of unnormalised problems, InflationLP.py 1935-1940. The number `1` is never a key of `known_vars_by_name`, whose keys are names; the value
assigned to `constant_term` is written into a dictionary that the property has just created and is lost. -/
def variableNames (E : Env K) (known : NameRow) : List String :=
  if constantTerm ∈ Dict.keys known then monomialNames E
  else if constantTerm ∈ monomialNames E then monomialNames E else monomialNames E ++ [constantTerm]

/-- `_prepare_solver_arguments`, InflationLP.py 1925-1957: the dictionary (`none` is an exception) and the new state, in which the by-name views may have been cached. With
`separate_bounds=False` the entries for bounds are not set, and the bounds are appended to the cached list of inequalities itself. -/
def prepareByName (E : Env K) (separate : Bool) (s : LpState) : Option (WArgs String Rat) × LpState :=
  if s.known.keys.all fun m => decide (m ∈ E.monomials) then
    match byName E s.known, byName E s.objective with
    | some kn, some ob =>
      match eqByName E s with
      | (none, s) => (none, s)
      | (some e, s) => match ineqByName E s with
        | (none, s) => (none, s)
        | (some i, s) =>
          if separate then match byName E s.lower, byName E s.upper with
            | some lo, some up => (some ⟨variableNames E kn, e, semiByName E s, i, kn, ob, lo, up⟩, s)
            | _, _ => (none, s)
          else
            let i' := i ++ (s.lower.map fun t => Dict.set [(nameOf E t.1, (1 : Rat))] "1" (-t.2))
              ++ (s.upper.map fun t => Dict.set [(nameOf E t.1, (-1 : Rat))] "1" t.2)
            (some ⟨variableNames E kn, e, semiByName E s, i', kn, ob, [], []⟩, { s with cachedIneq := some i' })
    | _, _ => (none, s)
  else (none, s)

/-- `expand_sparse_vec` with `conversion_style="lb"` (`sign = 1`) and `"ub"` (`sign = -1`), inflation/utils.py 113-141: one row per bound, with the bound in column 0. -/
def expandBounds (sign : Rat) (v : Dict Nat Rat) : List (Dict Nat Rat) := v.map fun t => [(t.1, sign), (0, -sign * t.2)]

/-- `_prepare_solver_matrices(separate_bounds=False)`, InflationLP.py 1864-1889. -/
def mergedArgs (E : Env K) (s : LpState) : Option Args :=
  (solverArgs E s).map fun a => { a with inequalities := a.inequalities ++ expandBounds 1 a.lower ++ expandBounds (-1) a.upper, lower := [], upper := [] }

end Verif.Views

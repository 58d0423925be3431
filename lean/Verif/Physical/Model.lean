import Verif.CollinsGisin.Model
import Verif.Columns.Model
import Verif.SdpEnd.Model
/-!
Model of the generating sets `"physicalN"` of `build_columns`, sdp/InflationSDP.py 1161-1239, and of the bit vectors of the outcomes that they are made from, 132-149.
`numpy` arrays are lists, `None` in the list of levels is `none`.
-/
namespace Verif.Physical
open Verif.Common Verif.Scenario Verif.SdpEnd Verif.CollinsGisin
open Verif.Orbits (flatnonzero)
open Verif.EndToEnd (Input)

/-- `self.InflationProblem.party_from_templateidx`, InflationProblem.py 388-392 (parties are numbered from 1). -/
def templateParty (S : Scenario) (t : Nat) : Nat := (S.lexorder[(S.orthoIdxs.getD t []).headD 0]?.map fun o => o.party).getD 0

/-- `template_is_short_enough`, InflationSDP.py 1215-1221: at most `caps[p]` measurements of party `p`, if that is not `None`. -/
def shortEnough (S : Scenario) (caps : List (Option Nat)) (template : List Nat) : Bool :=
  (List.range caps.length).all fun p =>
    match caps.getD p none with
    | none => true
    | some c => !decide (c < (template.map (templateParty S)).count (p + 1))

/-- The measurements of the program with their flags, InflationSDP.py 92-98 and 135-149. -/
def measurements (I : Input) : Groups := groupsOf I.scenario I.hasChildren I.allOutcomes

/-- `relevant_physical_templates`, InflationSDP.py 1222-1226. -/
def templates (I : Input) (maxLen : Nat) (caps : List (Option Nat)) : List (List Nat) :=
  (Verif.Cliques.allAndMaximalCliques (measurements I).length (templateAdj I.scenario I.D I.anyNonclassical) (maxLen : Int) false).1.filter (shortEnough I.scenario caps)

/-- `physical_monomials_as_boolvecs`, InflationSDP.py 1227-1230; `template_to_event_boolarray` (1206-1213) is the function of the same name of InflationLP, on vectors with one more
entry (`self._nr_operators` counts the zero operator, lines 132-134). -/
def boolvecs (I : Input) (maxLen : Nat) (caps : List (Option Nat)) : List (List Bool) :=
  (templates I maxLen caps).flatMap (templateEvents (nOps I) (cgGroups (nOps I) (measurements I)))

/-- The columns, InflationSDP.py 1231-1234. -/
def physicalCols (I : Input) (maxLen : Nat) (caps : List (Option Nat)) : List (List Nat) :=
  sortBy Verif.Columns.colLe ((boolvecs I maxLen caps).map fun v => (flatnonzero v).map (· + 1))


end Verif.Physical

import Verif.Sanitise.Props
/-
Model of the (non-linear) factorization conditions of an `InflationLP`: inflation/lp/InflationLP.py 268-288, 1748-1771.
-/
namespace Verif.Factorised
open Verif.Common Verif.Moment Verif.State Verif.EndToEnd Verif.Sanitise

variable (I : Input)

/-- `self.monomial_from_atoms[atoms]`: `none` is the `KeyError` of a tuple of atoms no moment was created for. -/
def fromAtoms (s : Session) (l : Mon) : Option Mon := if l ∈ s.created then some l else none

/-- The moments with more than one factor. -/
def products : List Mon := I.monomials.filter fun m => decide (1 < m.length)

/-- `factorization_conditions`, InflationLP.py 268-276. -/
def conditions (s : Session) : Option (List (Mon × List Mon)) :=
  (products I).mapM fun m => (m.mapM fun f => fromAtoms s [f]).map fun fs => (m, fs)

/-- `quadratic_factorization_conditions`, InflationLP.py 278-286. -/
def quadratic (s : Session) : Option (List (Mon × Mon × Mon)) :=
  (products I).mapM fun m => (fromAtoms s (m.take 1)).bind fun l => (fromAtoms s (m.drop 1)).map fun r => (m, l, r)

/-- `compmonomial_to_idx[mon]`, InflationLP.py 1318. -/
def indexOf (m : Mon) : Option Nat := I.monomials.findIdx? fun x => decide (x = m)

/-- `sparse_factorization_conditions`, InflationLP.py 1754-1758. -/
def sparseConditions (s : Session) : Option (List (Nat × List Nat)) :=
  (conditions I s).bind fun L => L.mapM fun t => (indexOf I t.1).bind fun i => (t.2.mapM (indexOf I)).map fun js => (i, js)

/-- `sparse_quadratic_factorization_conditions`, InflationLP.py 1766-1771. -/
def sparseQuadratic (s : Session) : Option (List (Nat × Nat × Nat)) :=
  (quadratic I s).bind fun L => L.mapM fun t => (indexOf I t.1).bind fun i => (indexOf I t.2.1).bind fun j => (indexOf I t.2.2).map fun k => (i, j, k)

/-- `factorization_conditions_by_name`, InflationLP.py 1748-1752: later entries with the same name would replace earlier ones. -/
def conditionsByName (names : List Text.Str) (s : Session) : Option (Dict Text.Str (List Text.Str)) :=
  (conditions I s).map fun L => L.foldl (fun d t => d.set (momentText I names t.1) (t.2.map (momentText I names))) []

/-- `quadratic_factorization_conditions_by_name`, InflationLP.py 1760-1764. -/
def quadraticByName (names : List Text.Str) (s : Session) : Option (Dict Text.Str (Text.Str × Text.Str)) :=
  (quadratic I s).map fun L => L.foldl (fun d t => d.set (momentText I names t.1) (momentText I names t.2.1, momentText I names t.2.2)) []

end Verif.Factorised

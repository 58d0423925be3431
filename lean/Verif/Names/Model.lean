import Verif.Scenario.Model
import Verif.Common.Text
import Verif.Knowable.Model
import Verif.State.Dict
/-
Model of the names of operators and moments: `_interpret_operator`, `_interpretation_to_name`, `_interpretation_to_name_old`, `_lexrepr_to_names`, `_lexrepr_to_copy_index_free_names`, `_lexrepr_to_all_names` (InflationProblem.py 509-671), `op_from_name` (lp/InflationLP.py 102-105, sdp/InflationSDP.py 160-163), `_interpret_atomic_string` and `_interpret_operator_string` (lp/InflationLP.py 1176-1226), `to_name` (sdp/fast_npa.py 395-427) and the names of atomic moments (lp/monomial_classes.py 146-200).
Text is a list of characters. SymPy symbols are not modelled.
-/
namespace Verif.Names
open Verif.Scenario Verif.Text Verif.State

/-- The part of the problem only the names depend on: `names`, `private_settings_per_party`, `parents_per_party`. -/
structure Naming where
  names : List Str
  priv : Nat → Nat
  parents : Nat → List Nat

/-- The entries of the dictionary made by `_interpret_operator` that are read later, InflationProblem.py 612-637. -/
structure Interp where
  party : Str
  outcome : Nat
  composite : Nat
  compositeTrivial : Bool
  priv : Nat
  privateTrivial : Bool
  doValues : List (Str × Nat)
  copies : List Nat
  relevant : List Nat
deriving DecidableEq

variable (S : Scenario) (N : Naming)

/-- `settings_per_party_lst[i]`, InflationProblem.py 224-231: number of private settings, then the numbers of outcomes of the parents. -/
def dims (p : Nat) : List Nat := N.priv p :: (N.parents p).map S.outcomes

/-- `_interpret_operator`, InflationProblem.py 612-637. `none` is the `KeyError` of a setting outside the dictionary. -/
def interpret (op : Op) : Option Interp :=
  (decodeSetting (dims S N (op.party - 1)) op.setting).map fun t =>
    { party := N.names.getD (op.party - 1) []
      outcome := op.outcome
      composite := op.setting
      compositeTrivial := S.settings (op.party - 1) == 1
      priv := t.headD 0
      privateTrivial := N.priv (op.party - 1) == 1
      doValues := ((N.parents (op.party - 1)).map fun q => N.names.getD q []).zip t.tail
      copies := op.copies
      relevant := ((List.range S.nSources).filter fun s => decide (0 < S.level s) && decide (0 < op.copies.getD s 0)).map fun s => op.copies.getD s 0 }

/-- `sep.join(map(str, l))` for a one-character separator. -/
def joinNat (sep : Char) : List Nat → Str
  | [] => []
  | [a] => natStr a
  | a :: b :: l => natStr a ++ sep :: joinNat sep (b :: l)

/-- `sep.join(l)` for a one-character separator. -/
def joinStr (sep : Char) : List Str → Str
  | [] => []
  | [a] => a
  | a :: b :: l => a ++ sep :: joinStr sep (b :: l)

/-- `f"{p}={v}"`, InflationProblem.py 657. -/
def doText (d : Str × Nat) : Str := d.1 ++ '=' :: natStr d.2

/-- `_interpretation_to_name`, InflationProblem.py 639-660. -/
def opName (includeCopies : Bool) (i : Interp) : Str :=
  i.party
  ++ (if i.privateTrivial then [] else '_' :: natStr i.priv)
  ++ (if includeCopies then (if i.relevant.isEmpty then [] else '^' :: '{' :: joinNat ',' i.relevant ++ ['}']) ++ '_' :: joinNat '_' i.copies else [])
  ++ '=' :: natStr i.outcome
  ++ (if i.doValues.isEmpty then [] else ['|', 'd', 'o', '('] ++ joinStr ',' (i.doValues.map doText) ++ [')'])

/-- `_interpretation_to_name_old`, InflationProblem.py 662-671 (always called with `replace_trivial_setting=True`). -/
def oldName (i : Interp) : Str :=
  i.party ++ '_' :: joinNat '_' i.copies ++ '_' :: (if i.compositeTrivial then ['∅'] else natStr i.composite) ++ '_' :: natStr i.outcome

/-- `_any_inflation`, InflationProblem.py 509-511. -/
def anyInflation : Bool := (List.range S.nSources).any fun s => decide (1 < S.level s)

/-- A row of `_lexrepr_to_all_names`, InflationProblem.py 558-579: display name, name without copy indices, the two legacy names (`replace('∅','0')` in the second). -/
def allNames (i : Interp) : List Str :=
  [opName (anyInflation S) i, opName false i, oldName i, (oldName i).map fun c => if c = '∅' then '0' else c]

/-- `for op_name in op_names: op_from_name.setdefault(op_name, i)`. -/
def setDefaults (d : Dict Str Nat) (names : List Str) (i : Nat) : Dict Str Nat :=
  names.foldl (fun d n => if (Dict.get d n).isSome then d else Dict.set d n i) d

/-- The loop over the operators, with the position of the first one. -/
def fillNames (d : Dict Str Nat) (i : Nat) : List (List Str) → Dict Str Nat
  | [] => d
  | ns :: rest => fillNames (setDefaults d ns i) (i + 1) rest

/-- `op_from_name` of the linear program, lp/InflationLP.py 102-105 (`none`: an operator cannot be interpreted). -/
def opFromName : Option (Dict Str Nat) :=
  (S.lexorder.mapM fun op => (interpret S N op).map (allNames S)).map (fillNames [] 0)

/-- `op_from_name` of the semidefinite program, sdp/InflationSDP.py 160-163: the zero operator has rank 0 and name "0". -/
def opFromNameSdp : Option (Dict Str Nat) :=
  (S.lexorder.mapM fun op => (interpret S N op).map (allNames S)).map (fillNames [(['0'], 0)] 1)

/-- The display name of an operator (`_lexrepr_to_names`, InflationProblem.py 524-538). -/
def displayName (op : Op) : Option Str := (interpret S N op).map (opName (anyInflation S))

/-- The name without copy indices (`_lexrepr_to_copy_index_free_names`, InflationProblem.py 540-556). -/
def copyFreeName (op : Op) : Option Str := (interpret S N op).map (opName false)

/-- The legacy name (`_lexrepr_to_all_names[:, 2]`, InflationProblem.py 570-572). -/
def legacyName (op : Op) : Option Str := (interpret S N op).map oldName

/-- The second legacy name (`_lexrepr_to_all_names[:, 3]`, InflationProblem.py 573). -/
def legacyName0 (op : Op) : Option Str := (legacyName S N op).map fun s => s.map fun c => if c = '∅' then '0' else c

/-- `to_name`, sdp/fast_npa.py 395-427. -/
def toName (names : List Str) (mon : List Op) : Str :=
  if mon.isEmpty then ['1']
  else joinStr '*' (mon.map fun op => names.getD (op.party - 1) [] ++ '_' :: joinNat '_' (op.copies ++ [op.setting, op.outcome]))

/-! ### Reading a bracketed name -/

/-- `s.replace(pat, '')` for a non-empty pattern: occurrences from left to right, without overlap. The first argument bounds the number of steps. -/
def removeAllAux (pat : Str) : Nat → Str → Str
  | 0, s => s
  | _ + 1, [] => []
  | f + 1, c :: s => if pat.isPrefixOf (c :: s) then removeAllAux pat f ((c :: s).drop pat.length) else c :: removeAllAux pat f s

def removeAll (pat s : Str) : Str := removeAllAux pat (s.length + 1) s

/-- `s.replace(' & ', ' ')`. -/
def ampAux : Nat → Str → Str
  | 0, s => s
  | _ + 1, [] => []
  | f + 1, c :: s => if " & ".toList.isPrefixOf (c :: s) then ' ' :: ampAux f ((c :: s).drop 3) else c :: ampAux f s

def replaceAmp (s : Str) : Str := ampAux (s.length + 1) s

/-- `substrings_to_kill`, lp/InflationLP.py 1203; a Python set, so the order of iteration is not determined. -/
def toKill : List Str := ["P[".toList, "P(".toList, "p[".toList, "p(".toList, "<".toList]

/-- `_interpret_atomic_string` on a name that is not in `atom_from_name`, lp/InflationLP.py 1196-1212, sdp/InflationSDP.py 1698-1715; `order` is the order in which the set is iterated. The comparison `factor_string[0:1] == "P["` compares one character with two and is never true. `none`: assertion error, `KeyError`, or `IndexError` on the empty string. -/
def interpretAtomic (dict : Dict Str Nat) (order : List Str) (s : Str) : Option (List Nat) :=
  match s.head?, s.getLast? with
  | some a, some z =>
    if (a = '<' ∧ z = '>') ∨ (s.take 1 = "P[".toList ∧ z = ']') ∨ ('|' ∉ s ∧ ' ' ∉ s) then
      if z = '>' ∨ z = ')' ∨ z = ']' ∨ z = '}' then
        (splitAt ' ' (replaceAmp (order.foldl (fun t pat => removeAll pat t) s.dropLast))).mapM fun w => Dict.get dict w
      else (Dict.get dict s).map fun r => [r]
    else none
  | _, _ => none

/-! ### Names of atomic moments -/

/-- The outcomes of a party in the moment, in order of appearance (`ambigous_outcome_dict`, lp/monomial_classes.py 150-152; a set, so without repetition). -/
def outcomesOf (ops : List Interp) (p : Str) : List Nat := ((ops.filter fun i => i.party == p).map (·.outcome)).eraseDups

/-- The do-values that stay after the loop over the parties with one outcome, lp/monomial_classes.py 153-159: removed if the parent occurs with a single outcome, equal to the do-value. -/
def cleanDo (ops : List Interp) (d : List (Str × Nat)) : List (Str × Nat) :=
  d.filter fun kv => !(outcomesOf ops kv.1 == [kv.2])

/-- `InternalAtomicMonomial._name`, lp/monomial_classes.py 146-166, for a moment that is neither one nor zero. -/
def atomName (includeCopies doConditional allCommuting : Bool) (ops : List Interp) : Str :=
  let list :=
    if doConditional then ops.map fun i => opName false { i with doValues := cleanDo ops i.doValues }
    else ops.map (opName includeCopies)
  if allCommuting then 'P' :: '[' :: joinStr ' ' list ++ [']'] else '<' :: joinStr ' ' list ++ ['>']

/-- The concatenation of numerals with a divider that is empty if all have one digit, lp/monomial_classes.py 186-192. -/
def divided (l : List Nat) : Str :=
  if l.all fun a => (natStr a).length == 1 then (l.map natStr).flatten else joinNat ',' l

/-- `_raw_name` of a knowable moment, lp/monomial_classes.py 168-196: `rows` is the rectified array (party, setting, outcome). -/
def rawName (names : List Str) (rows : List (Nat × Nat × Nat)) : Str :=
  'p' :: (rows.map fun r => names.getD (r.1 - 1) []).flatten ++ '(' :: divided (rows.map fun r => r.2.2)
    ++ '|' :: divided (rows.map fun r => r.2.1) ++ [')']

end Verif.Names

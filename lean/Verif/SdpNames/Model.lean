import Verif.SdpEnd.Model
import Verif.Sanitise.Model
import Verif.SdpRepr.Spec
import Mathlib.Logic.Relation
/-!
The names of the moments of the semidefinite program. An atomic moment is created by `_AtomicMonomial` or as the adjoint of another one; the two ways give different names to the same
monomial, so the name of an atom is a relation. The results of the memoised representatives are those of histories in which representatives are only asked for monomials that cannot be
simplified (which is what `Moment_1d` does with the monomials of the moment matrix and with canonical forms, see C67).
-/
namespace Verif.SdpNames
open Verif.Common Verif.Canon Verif.Scenario Verif.Moment Verif.SdpRepr Verif.SdpEnd Verif.Text Verif.Names
open Verif.State (Mon)
open Verif.EndToEnd (Input)
open Verif.Sanitise (naming constantName)

/-- The dictionaries after a history of calls in which representatives are asked only for words of operators that cannot be simplified. -/
def UsualMem (I : Input) (m : Mem) : Prop :=
  ∃ history : List SdpRepr.Call, (∀ c ∈ history, match c with | .canon _ _ => True | .repr _ w => InRange I w ∧ Reduced (notcomm I) (orthomat I) w) ∧
    m = after (notcomm I) (orthomat I) (allCommute I) (symmetries I) history

/-- `_AtomicMonomial`, InflationSDP.py 1327-1361, after such histories (see `SdpEnd.AtomOf`). -/
inductive UsualAtom (I : Input) : List Nat → Atom → Prop
  | direct {w : List Nat} {m : Mem} (h : UsualMem I m) : UsualAtom I w (reprMemo (notcomm I) (orthomat I) (allCommute I) (symmetries I) m false w).2
  | stored {w : List Nat} {m : Mem} {a : Atom} (h : UsualMem I m) (ha : UsualAtom I (reprMemo (notcomm I) (orthomat I) (allCommute I) (symmetries I) m false w).2 a) : UsualAtom I w a

/-- The results of the memoised functions are computed after such histories. -/
structure UsualChoice (ch : Choice) (I : Input) : Prop where
  atomOf : ∀ w, InRange I w → Reduced (notcomm I) (orthomat I) w → UsualAtom I w (ch.atomOf w)
  dagger : ∀ a, InRange I a → Reduced (notcomm I) (orthomat I) a → ∃ m, UsualMem I m ∧ ch.dagger a = (conjugate (notcomm I) (orthomat I) (allCommute I) (symmetries I) m a).2

variable (I : Input) (names : List Str)

/-- The part of `_name` for moments which are neither one nor zero, lp/monomial_classes.py 151-166. -/
def nameWith (doConditional allCommuting : Bool) (a : Atom) : Str := (momentName I.scenario (naming I names) doConditional allCommuting (operators I a)).getD []

/-- `InternalAtomicMonomial.name` at creation, lp/monomial_classes.py 100, 146-166. -/
def createdText (a : Atom) : Str :=
  if a.isEmpty then ['1'] else if isZero a then ['0'] else nameWith I names (doConditional I a) (allCommuting (notcomm I) (allCommute I) a) a

/-- The name of an adjoint, sdp/monomial_classes.py 102-104: always with copy indices and angle brackets. -/
def daggerText (a : Atom) : Str := nameWith I names false false a

/-- The names which an atom can have: the one at creation and, for a moment that differs from its adjoint (so that not all its operators commute), the one as an adjoint. -/
inductive AtomNamed (a : Atom) : Str → Prop
  | created : AtomNamed a (createdText I names a)
  | adjoint (h : allCommuting (notcomm I) (allCommute I) a = false) : AtomNamed a (daggerText I names a)

/-- `CompoundMoment.name`, lp/monomial_classes.py 304-305, `name_from_atom_names`, sdp/monomial_utils.py 59-83. -/
def MomentNamed (m : Mon) (t : Str) : Prop := ∃ texts, List.Forall₂ (AtomNamed I names) m texts ∧ t = joinChars texts

/-- `InternalAtomicMonomial.legacy_name`, lp/monomial_classes.py 101, 168-195. -/
def legacyText (a : Atom) : Str :=
  if a.isEmpty then ['1'] else if isZero a then ['0']
  else if knowable I a then rawName names ((Knowable.rectify I.dims (Knowable.rowsOf (operators I a))).getD [])
  else '<' :: joinStr ' ' ((operators I a).map fun op => (legacyName I.scenario (naming I names) op).getD []) ++ ['>']

/-- The legacy names of an atom: its own or, for an adjoint (which is a copy, sdp/monomial_classes.py 96-104), the one of the moment whose adjoint it is. -/
inductive AtomLegacy (ch : Choice) (a : Atom) : Str → Prop
  | own : AtomLegacy ch a (legacyText I names a)
  | original {b : Atom} (hb : b ≠ []) (h0 : 0 ∉ b) (e : ch.dagger b = a) (hne : a ≠ b) : AtomLegacy ch a (legacyText I names b)

/-- `CompoundMoment.legacy_name`, lp/monomial_classes.py 306-307. -/
def MomentLegacy (ch : Choice) (m : Mon) (l : Str) : Prop := ∃ texts, List.Forall₂ (AtomLegacy I names ch) m texts ∧ l = joinChars texts

/-! ### The table of moments -/

/-- The moments which have been made, with their names (`monomial_from_atoms`), and `monomial_from_name`. -/
structure Table where
  created : List (Mon × Str)
  dict : State.Dict Str Mon

/-- `_monomial_from_atoms`, InflationSDP.py 1508-1524: a new moment is entered under its name and its legacy name. -/
def register (s : Table) (m : Mon) (t l : Str) : Table :=
  if m ∈ s.created.map Prod.fst then s else ⟨s.created ++ [(m, t)], (s.dict.set t m).set l m⟩

/-- The table at the beginning of `generate_relaxation`, InflationSDP.py 296-304. -/
def start : Table := ⟨[([[0]], ['0']), ([], ['1'])], State.Dict.set (State.Dict.set (State.Dict.set [] ['0'] [[0]]) ['1'] []) constantName []⟩

/-- What makes moments: `Moment_1d` on a word that cannot be simplified (the monomials of the moment matrix, InflationSDP.py 355; canonical forms of arrays and names, 1562-1564), and
`_monomial_from_atoms` on atoms of moments of the table (529-535, 2028-2034). -/
inductive Step (ch : Choice) (name : Atom → String) : Table → Table → Prop
  | word {s : Table} {w : List Nat} {t l : Str} (hw : InRange I w) (hr : Reduced (notcomm I) (orthomat I) w) (ht : MomentNamed I names (momentOf I ch name w) t)
      (hl : MomentLegacy I names ch (momentOf I ch name w) l) : Step ch name s (register s (momentOf I ch name w) t l)
  | combine {s : Table} {atoms : List Atom} {t l : Str} (ha : ∀ a ∈ atoms, ∃ m ∈ s.created.map Prod.fst, a ∈ m)
      (ht : MomentNamed I names (SdpState.monFromAtoms (protoEnv I ch name) atoms) t) (hl : MomentLegacy I names ch (SdpState.monFromAtoms (protoEnv I ch name) atoms) l) :
      Step ch name s (register s (SdpState.monFromAtoms (protoEnv I ch name) atoms) t l)

/-- One state of the table comes later than the other. -/
def Later (ch : Choice) (name : Atom → String) : Table → Table → Prop := Relation.ReflTransGen (Step I names ch name)

/-- The states of the table. -/
def Reachable (ch : Choice) (name : Atom → String) (s : Table) : Prop := Later I names ch name start s

/-- The branch for strings of `_sanitise_moment` and `_interpret_name`, InflationSDP.py 1566, 1660-1666; `split` stands for what is done with a string that is not in the table (1667-1677). -/
def readName (split : Str → Option Mon) (s : Table) (t : Str) : Option Mon :=
  if t = ['1'] then some []
  else match s.dict.get t with
    | some m => some m
    | none => split t

end Verif.SdpNames

import Verif.Names.Spec
import Verif.EndToEnd.Model
import Verif.EndToEnd.Spec
import Verif.Sanitise.Model
import Mathlib.Logic.Relation
/-!
Vocabulary of the statements about reading moments.
-/
namespace Verif.Sanitise
open Verif.Common Verif.Scenario Verif.Orbits Verif.Moment Verif.State Verif.Text Verif.Names Verif.EndToEnd

/-- The party names of the problem: one different name per party, none of which contains a character that the names of moments use as a separator or bracket. -/
structure NamesOk (I : Input) (names : List Str) : Prop where
  len : names.length = I.D.names.length
  nodup : names.Nodup
  avoid : ∀ n ∈ names, ∀ c ∈ ['_', '^', '=', ' ', '*', '∅', '<', '[', '(', '&', ',', '{', '}', ')', ']', '|'], c ∉ n

instance (I : Input) (names : List Str) : Decidable (NamesOk I names) :=
  decidable_of_iff (names.length = I.D.names.length ∧ names.Nodup ∧ ∀ n ∈ names, ∀ c ∈ ['_', '^', '=', ' ', '*', '∅', '<', '[', '(', '&', ',', '{', '}', ')', ']', '|'], c ∉ n)
    ⟨fun h => ⟨h.1, h.2.1, h.2.2⟩, fun h => ⟨h.len, h.nodup, h.avoid⟩⟩

/-- What can happen to the table of moments after the program has been generated: a moment is read in one of the accepted forms, or atoms of moments of the table are
combined into a moment (`atomic_monomials`, `evaluate`). -/
inductive Step (I : Input) (names : List Str) (order : List Str) : Session → Session → Prop
  | read {s s' : Session} {f : Form} {m : Mon} (hf : ∀ a, f = .atom a → ∃ m' ∈ s.created, a ∈ m') (e : sanitise I names order s f = some (s', m)) : Step I names order s s'
  | combine {s : Session} {atoms : List Atom} (hf : ∀ a ∈ atoms, ∃ m' ∈ s.created, a ∈ m') : Step I names order s (register I names s (sortBy atomLe atoms))

/-- One state of the table comes later than the other. -/
def Later (I : Input) (names : List Str) (order : List Str) : Session → Session → Prop := Relation.ReflTransGen (Step I names order)

/-- The states of the table of moments. -/
def Reachable (I : Input) (names : List Str) (order : List Str) (s : Session) : Prop := Later I names order (generated I names) s

/-- The set of operators `b` is obtained from the set `a` by relabelling the copies of the sources. -/
def Relabelled (S : Scenario) (a b : List Nat) : Prop :=
  ∃ g, Verif.Symmetry.Relabelling S g ∧
    ∀ op, (∃ i ∈ b, S.lexorder[i]? = some op) ↔ Valid S op ∧ ∃ i ∈ a, S.lexorder[i]? = some (Verif.Symmetry.act g op)

/-- The probability of the event of the inflated network in which all operators of the set happen. -/
def probability {S : Scenario} {O : Observed} {Λ F : Type} [Fintype Λ] [Field F] [LinearOrder F] (M : ClassicalModel S O Λ F) (a : List Nat) : F :=
  M.vec (boolKey S.lexorder.length a)

/-- The value of a moment: the product of the probabilities of its factors. -/
def valueOf {S : Scenario} {O : Observed} {Λ F : Type} [Fintype Λ] [Field F] [LinearOrder F] (M : ClassicalModel S O Λ F) (m : Mon) : F :=
  (m.map (probability M)).prod

end Verif.Sanitise

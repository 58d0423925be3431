import Verif.Marginal.Model
/-
Marginals and no-signalling, independent of how they are computed.
-/
namespace Verif.Marginal
open Verif.Scenario (ndindex)

variable {R : Type*} [AddCommMonoid R]

/-- A joint outcome of all parties agrees with the rows of an atom. -/
def Agrees (atom : List Row) (a : List Nat) : Prop := ∀ t ∈ atom, a[t.party - 1]? = some t.outcome

instance (atom : List Row) (a : List Nat) : Decidable (Agrees atom a) := List.decidableBAll _ _

/-- The marginal of `P` for the event `atom`, all parties using the given settings: the sum over all joint outcomes that agree with the event. -/
def marginal (outs : List Nat) (P : List Nat → R) (atom : List Row) (settings : List Nat) : R :=
  (((ndindex outs).filter fun a => decide (Agrees atom a)).map fun a => P (a ++ settings)).sum

/-- An atom of the problem: parties increasing, between 1 and `n`, outcomes in range. -/
structure GoodAtom (outs : List Nat) (atom : List Row) : Prop where
  sorted : atom.Pairwise fun s t => s.party < t.party
  pos : ∀ t ∈ atom, 1 ≤ t.party
  le : ∀ t ∈ atom, t.party ≤ outs.length
  outcome : ∀ t ∈ atom, ∃ d, outs[t.party - 1]? = some d ∧ t.outcome < d

/-- Settings of all parties that agree with those of the atom. -/
def SettingsOf (n : Nat) (atom : List Row) (settings : List Nat) : Prop :=
  settings.length = n ∧ ∀ t ∈ atom, settings[t.party - 1]? = some t.setting

/-- The settings of the atom exist. -/
structure GoodSettings (ins : List Nat) (atom : List Row) : Prop where
  pos : ∀ e ∈ ins, 0 < e
  setting : ∀ t ∈ atom, ∃ e, ins[t.party - 1]? = some e ∧ t.setting < e

/-- A conditional distribution: normalised for all settings. -/
def Normalised (outs ins : List Nat) (P : List Nat → R) [One R] : Prop :=
  ∀ x ∈ ndindex ins, ((ndindex outs).map fun a => P (a ++ x)).sum = 1

/-- No-signalling: the outcomes of the other parties do not depend on the setting of any single party. -/
def NoSignalling (outs ins : List Nat) (P : List Nat → R) : Prop :=
  ∀ (p d e : Nat), outs[p]? = some d → ins[p]? = some e → ∀ a ∈ ndindex outs, ∀ x ∈ ndindex ins, ∀ y < e,
    ((List.range d).map fun i => P (a.set p i ++ x)).sum = ((List.range d).map fun i => P (a.set p i ++ x.set p y)).sum

end Verif.Marginal

import Mathlib.Algebra.Order.Ring.Defs
import Mathlib.Algebra.BigOperators.Group.List.Basic
import Verif.Orbits.Spec
import Verif.Cliques.Spec
/-
Behaviours (families of joint probabilities) over compatible measurements. A measurement is the list of the numbers of its
outcomes; an event is a set of outcomes, given by its indicator vector `boolKey n e`.
-/
namespace Verif.CollinsGisin
open Verif.Orbits

/-- The outcomes `0..n-1` are split in consecutive non-empty blocks, one per measurement. -/
structure BlocksOk (n : Nat) (blocks : List (List Nat)) : Prop where
  flat : blocks.flatten = List.range n
  nonempty : ∀ b ∈ blocks, b ≠ []

/-- A joint event: one outcome for each of some different, pairwise compatible measurements. -/
structure IsEvent (blocks : List (List Nat)) (adj : Nat → Nat → Bool) (e : List Nat) : Prop where
  ops : ∀ r ∈ e, ∃ b ∈ blocks, r ∈ b
  compat : e.Pairwise fun r s => ∀ i j bi bj, blocks[i]? = some bi → blocks[j]? = some bj → r ∈ bi → s ∈ bj →
    i ≠ j ∧ adj i j = true

/-- A joint event that involves every measurement compatible with all those it involves. -/
structure IsGlobalEvent (blocks : List (List Nat)) (adj : Nat → Nat → Bool) (e : List Nat) : Prop where
  event : IsEvent blocks adj e
  maximal : ∀ (i : Nat) (b : List Nat), blocks[i]? = some b → ∀ r ∈ b, IsEvent blocks adj (r :: e) → False

/-- `p` is a behaviour: summing over the outcomes of one measurement gives the marginal without it. -/
def Marginalises {K : Type} [AddCommMonoid K] (n : Nat) (blocks : List (List Nat)) (adj : Nat → Nat → Bool) (p : List Bool → K) : Prop :=
  ∀ (b : List Nat) (e : List Nat), b ∈ blocks → (∀ r ∈ b, IsEvent blocks adj (r :: e)) →
    (b.map fun r => p (boolKey n (r :: e))).sum = p (boolKey n e)

/-- `p` is invariant under relabelling the copies. -/
def Invariant {K : Type} (n : Nat) (syms : List (List Nat)) (p : List Bool → K) : Prop :=
  ∀ v w, v.length = n → SameOrbit syms v w → p v = p w

/-- All joint events have non-negative probability. -/
def Nonneg {K : Type} [Zero K] [LE K] (n : Nat) (blocks : List (List Nat)) (adj : Nat → Nat → Bool) (p : List Bool → K) : Prop :=
  ∀ e, IsEvent blocks adj e → 0 ≤ p (boolKey n e)

/-- The symmetries relabel measurements as wholes: each maps every measurement, outcome by outcome and in order, to a
measurement of a party of the same kind (`true`: the party has children), and preserves compatibility. -/
structure Relabels (gs : List (Bool × List Nat)) (adj : Nat → Nat → Bool) (syms : List (List Nat)) : Prop where
  block : ∀ r ∈ syms, ∀ g ∈ gs, (g.1, g.2.map fun k => r.getD k 0) ∈ gs
  compat : ∀ r ∈ syms, ∀ (i j i' j' : Nat) (g h : Bool × List Nat), gs[i]? = some g → gs[j]? = some h →
    gs[i']? = some (g.1, g.2.map fun k => r.getD k 0) → gs[j']? = some (h.1, h.2.map fun k => r.getD k 0) →
    adj i' j' = adj i j

/-- The value of a sparse row for given values of the columns. -/
def rowValue {K : Type} [Ring K] (x : Nat → K) (row : List (Int × Nat)) : K := (row.map fun t => (t.1 : K) * x t.2).sum

end Verif.CollinsGisin

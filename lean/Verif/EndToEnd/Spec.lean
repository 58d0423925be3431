import Mathlib.Algebra.Order.Field.Basic
import Verif.EndToEnd.Expect
import Verif.Scenario.Model
import Verif.Orbits.Model
/-!
Classical causal models of a network and of its inflation, independent of the code: what it means for a distribution to be
compatible with the causal structure, and which probabilities a model assigns to the events of the inflated network.
-/
namespace Verif.EndToEnd
open Verif.Scenario
open Verif.Orbits (flatnonzero)

/-- The observed part of the causal structure: the parents (observed parties, counted from 0) of each party and the number of its own settings. -/
structure Observed where
  parents : Nat → List Nat
  priv : Nat → Nat

/-- The number of values of the own setting and of the outcome of each parent (`settings_per_party_lst`, InflationProblem.py 214-231). -/
def Observed.dims (O : Observed) (S : Scenario) (p : Nat) : List Nat := O.priv p :: (O.parents p).map S.outcomes

/-- The parties form an acyclic graph, every party has a setting, and every party's effective settings are the combinations of its own setting and its parents' outcomes. -/
structure Observed.Ok (O : Observed) (S : Scenario) : Prop where
  acyclic : ∃ rank : Nat → Nat, ∀ p < S.nParties, ∀ q ∈ O.parents p, q < S.nParties ∧ rank q < rank p
  priv_pos : ∀ p < S.nParties, 0 < O.priv p
  settings : ∀ p < S.nParties, S.settings p = effectiveSettings (O.dims S p)

/-- A classical causal model: every source emits a random value; every party answers with a probability that depends on its own setting, the outcomes of its
parents, and the values of the sources it is connected to. -/
structure ClassicalModel (S : Scenario) (O : Observed) (Λ F : Type) [Fintype Λ] [Field F] [LinearOrder F] where
  source : Fin S.nSources → Λ → F
  response : (party own : Nat) → (parents : List Nat) → (outcome : Nat) → (Fin S.nSources → Λ) → F
  source_nonneg : ∀ s v, 0 ≤ source s v
  source_sum : ∀ s, ∑ v, source s v = 1
  response_nonneg : ∀ p x y a l, 0 ≤ response p x y a l
  response_sum : ∀ p < S.nParties, ∀ x < O.priv p, ∀ y ∈ ndindex ((O.parents p).map S.outcomes), ∀ l,
    ((List.range (S.outcomes p)).map fun a => response p x y a l).sum = 1
  response_local : ∀ p x y a l m, (∀ s : Fin S.nSources, S.hyp s p = true → l s = m s) → response p x y a l = response p x y a m

/-- The copies of the sources in the inflated network: labels `1..level` of every source (label 0, which marks sources an operator does not act on, is a
placeholder that no response depends on). -/
abbrev Copy (S : Scenario) := (s : Fin S.nSources) × Fin (max (S.level s) 1 + 1)

namespace ClassicalModel
variable {S : Scenario} {O : Observed} {Λ F : Type} [Fintype Λ] [Field F] [LinearOrder F] (M : ClassicalModel S O Λ F)

/-- The probability that the parties obtain the outcomes `a` for the own settings `x`. -/
def prob (a x : Nat → Nat) : F :=
  expect M.source fun l => ((List.range S.nParties).map fun p => M.response p (x p) ((O.parents p).map a) (a p) l).prod

/-- The distribution array `P[a_1, ..., a_n, x_1, ..., x_n]`, given by its entries, is that of the model. -/
def Generates (P : List Nat → F) : Prop :=
  ∀ a ∈ ndindex ((List.range S.nParties).map S.outcomes), ∀ x ∈ ndindex ((List.range S.nParties).map O.priv),
    P (a ++ x) = M.prob (fun p => a.getD p 0) (fun p => x.getD p 0)

/-- The values of the copies an operator of the inflated network acts on. -/
def seen (op : Op) (ν : Copy S → Λ) (s : Fin S.nSources) : Λ := ν ⟨s, Fin.ofNat _ (op.copies.getD s 0)⟩

/-- The probability that the copy of the party described by `op`, when its own setting and its parents' outcomes are fixed to the values encoded in the
effective setting, obtains the outcome of `op`. -/
def opResponse (op : Op) (ν : Copy S → Λ) : F :=
  match decodeSetting (O.dims S (op.party - 1)) op.setting with
  | some (x :: y) => M.response (op.party - 1) x y op.outcome (seen op ν)
  | _ => 0

/-- Response of the operator with a given rank. -/
def rankResponse (r : Nat) (ν : Copy S → Λ) : F :=
  match S.lexorder[r]? with
  | some op => M.opResponse op ν
  | none => 1

/-- The probability, in the inflated network, that all operators of a set (given by their ranks) happen: all copies of a source are independent and distributed like
the source, all copies of a party respond like the party. -/
def event (e : List Nat) : F := expect (fun c : Copy S => M.source c.1) fun ν => (e.map fun r => M.rankResponse r ν).prod

/-- The same for a set given by its indicator vector. -/
def vec (v : List Bool) : F := M.event (flatnonzero v)

end ClassicalModel

end Verif.EndToEnd

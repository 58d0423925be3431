import Verif.QuantumNet.State
import Verif.EndToEnd.Model
import Verif.Scenario.Props
/-!
Quantum networks, independent of the code: every source prepares a quantum state and sends one system to each of the parties it influences; every party performs a projective measurement on
the systems it receives, chosen according to its own setting and the outcomes of its parents.
-/
namespace Verif.QuantumNet
open Verif.Scenario
open Verif.EndToEnd (Input)

/-- The parties that receive a system from a source. -/
abbrev Receivers (I : Input) (s : Fin I.scenario.nSources) : Type := { p : Fin I.scenario.nParties // I.scenario.hyp s p = true }

/-- The sources from which a party receives a system. -/
abbrev Received (I : Input) (p : Nat) : Type := { s : Fin I.scenario.nSources // I.scenario.hyp s p = true }

/-- A quantum network with the causal structure of the problem. All systems have the basis states `A` (a system of smaller dimension is a subspace); all measurements are
projective (any measurement is a projective one on a larger system, which a source can provide). Systems which a party gets from a classical source, or through a classical latent
variable, are only read: they are not changed by measurements. -/
structure QuantumNetwork (I : Input) (A : Type) [Fintype A] [DecidableEq A] where
  state : (s : Fin I.scenario.nSources) → Operator (Receivers I s) A
  effect : (party own : Nat) → (parents : List Nat) → (outcome : Nat) → Operator (Received I party) A
  state_positive : ∀ s, ∃ β : Operator (Receivers I s) A, state s = β.conjTranspose * β
  state_trace : ∀ s, (state s).trace = 1
  effect_projector : ∀ p x y a, effect p x y a * effect p x y a = effect p x y a ∧ (effect p x y a).conjTranspose = effect p x y a
  effect_orthogonal : ∀ p x y a b, a ≠ b → effect p x y a * effect p x y b = 0
  effect_complete : ∀ p < I.scenario.nParties, ∀ x < I.observed.priv p, ∀ y ∈ ndindex ((I.observed.parents p).map I.scenario.outcomes),
    ((List.range (I.scenario.outcomes p)).map (effect p x y)).sum = 1
  effect_classical : ∀ p x y a, ∀ s : Received I p, ¬ QuantumLinked I.D (I.D.sources.getD s.1 0) p p → DiagAt (effect p x y a) s

namespace QuantumNetwork
variable {I : Input} {A : Type} [Fintype A] [DecidableEq A] (N : QuantumNetwork I A)

/-- The Born rule `Tr[(⊗ₛ stateₛ) (⊗ₚ effectₚ)]`: the probability that the parties obtain the outcomes `a` for the own settings `x`. -/
noncomputable def prob (a x : Nat → Nat) : ℂ :=
  ∑ i : (Σ s, Receivers I s) → A, ∑ j : (Σ s, Receivers I s) → A, (∏ s, N.state s (fun p => i ⟨s, p⟩) (fun p => j ⟨s, p⟩)) *
    ∏ p : Fin I.scenario.nParties, N.effect p (x p) ((I.observed.parents p).map a) (a p) (fun s => j ⟨s.1, p, s.2⟩) (fun s => i ⟨s.1, p, s.2⟩)

/-- The distribution array `P[a_1, ..., a_n, x_1, ..., x_n]` is that of the network. -/
def Generates (P : List Nat → ℂ) : Prop :=
  ∀ a ∈ ndindex ((List.range I.scenario.nParties).map I.scenario.outcomes), ∀ x ∈ ndindex ((List.range I.scenario.nParties).map I.observed.priv),
    P (a ++ x) = N.prob (fun p => a.getD p 0) (fun p => x.getD p 0)

end QuantumNetwork

end Verif.QuantumNet

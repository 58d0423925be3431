import Verif.EndToEnd.Model
import Verif.Scenario.Props
import Verif.Symmetry.Spec
import Verif.Components.Spec
/-!
What a physical theory (classical, quantum or any other generalised probabilistic theory) says about an inflated network whose sources cannot be copied, independent of the code:
the probabilities of joint events of compatible measurements.
-/
namespace Verif.Theory
open Verif.Scenario Verif.Components
open Verif.EndToEnd (Input)
open Verif.Symmetry (Relabelling act)

/-- Two measurements that need the same copy of a nonclassical system (of a nonclassical source, possibly through a nonclassical latent) cannot be performed together, unless they are on
the same copies of everything they have in common and either belong to different parties or are the same measurement. -/
def Incompatible (D : DagInput) (a b : Op) : Prop :=
  (∃ s src c : Nat, D.sources[s]? = some src ∧ QuantumLinked D src (a.party - 1) (b.party - 1) ∧ a.copies[s]? = some c ∧ b.copies[s]? = some c) ∧
  ((∃ s src c d : Nat, D.sources[s]? = some src ∧ Linked D src (a.party - 1) (b.party - 1) ∧ a.copies[s]? = some c ∧ b.copies[s]? = some d ∧ c ≠ d) ∨
    (a.party = b.party ∧ a.setting ≠ b.setting))

/-- The operators are outcomes of the same measurement. -/
def SameMeasurement (a b : Op) : Prop := a.party = b.party ∧ a.copies = b.copies ∧ a.setting = b.setting

/-- A joint event of the inflated network: one outcome for each of some different measurements that can be performed together. -/
structure Joint (I : Input) (e : List Op) : Prop where
  valid : ∀ x ∈ e, Valid I.scenario x
  compat : e.Pairwise fun x y => ¬ SameMeasurement x y ∧ ¬ Incompatible I.D x y

/-- The probabilities that a theory assigns to the joint events of the inflated network: they are non-negative, give the marginals when the outcomes of one measurement are summed (in
particular the choice of a measurement is not visible elsewhere), do not change when the copies of the sources are permuted, and are products for events that have no
copy of a source in common. Nothing is said about sets of measurements that cannot be performed together. -/
structure InflatedTheory (I : Input) (F : Type) [Field F] [LinearOrder F] where
  prob : List Op → F
  perm : ∀ e e', Joint I e → e.Perm e' → prob e = prob e'
  unit : prob [] = 1
  nonneg : ∀ e, Joint I e → 0 ≤ prob e
  marginal : ∀ x e, Joint I (x :: e) → ((List.range (I.scenario.outcomes (x.party - 1))).map fun o => prob ({ x with outcome := o } :: e)).sum = prob e
  symmetric : ∀ g, Relabelling I.scenario g → ∀ e, Joint I e → prob (e.map (act g)) = prob e
  independent : ∀ e f, Joint I (e ++ f) → (∀ x ∈ e, ∀ y ∈ f, ¬ ShareCopy x y) → prob (e ++ f) = prob e * prob f

/-- The operators say: every party of the original network (the first copies of the sources) has its own setting `x` and the outcomes of its parents as setting, and obtains `a`. -/
structure Original (I : Input) (a x : List Nat) (e : List Op) : Prop where
  parties : e.map (·.party) = (List.range I.scenario.nParties).map (· + 1)
  valid : ∀ op ∈ e, Valid I.scenario op
  first : ∀ op ∈ e, ∀ c ∈ op.copies, c ≤ 1
  outcome : ∀ op ∈ e, op.outcome = a.getD (op.party - 1) 0
  setting : ∀ op ∈ e, decodeSetting (I.dims (op.party - 1)) op.setting = some (x.getD (op.party - 1) 0 :: (I.parents (op.party - 1)).map fun q => a.getD q 0)

variable {I : Input} {F : Type} [Field F] [LinearOrder F]

/-- The distribution array `P[a_1, ..., a_n, x_1, ..., x_n]` is what the theory gives to the original network. -/
def InflatedTheory.Generates (T : InflatedTheory I F) (P : List Nat → F) : Prop :=
  ∀ a ∈ ndindex ((List.range I.scenario.nParties).map I.scenario.outcomes), ∀ x ∈ ndindex ((List.range I.scenario.nParties).map I.observed.priv),
    ∀ e, Original I a x e → P (a ++ x) = T.prob e

/-- The probability of the event given by the ranks of its operators. -/
def InflatedTheory.event (T : InflatedTheory I F) (e : List Nat) : F := T.prob (e.filterMap (I.scenario.lexorder[·]?))

end Verif.Theory

import Verif.SdpEnd.Model
import Verif.SdpState.Spec
import Verif.Components.Spec
import Verif.Normalization.Spec
import Verif.Symmetry.Props
import Mathlib.LinearAlgebra.Complex.Module
import Mathlib.Algebra.Star.Module
/-!
What the semidefinite program is about, independent of how it is built: the operators of the inflated network in a `*`-algebra together with a state, and what it means
for the values a user gives to the program to be true of such a model.
-/
namespace Verif.SdpEnd
open Verif.Moment Verif.Normalization Verif.Components
open Verif.Symmetry (img)
open Verif.State (Dict Mon)
open Verif.EndToEnd (Input)

/-- A model of the inflated network: every operator of the inflation (rank 0 being the zero operator) is a projector of a `*`-algebra; operators commute and are orthogonal where the
causal structure says so, the operators of a measurement sum to the unit; `φ` is a state (unital, hermitian, positive functional) which does not change when the copies of
the sources are permuted, and under which operators without a common copy of a source are independent. -/
structure InflatedModel (I : Input) (R : Type) [Ring R] [StarRing R] [Algebra ℝ R] where
  ρ : Nat → R
  φ : R →ₗ[ℝ] ℂ
  operators : Normalization.Model (nOps I) (notcomm I) (orthomat I) ρ
  complete : Complete (scenarioGroups I.scenario) ρ
  unit : φ 1 = 1
  hermitian : ∀ x, φ (star x) = (starRingEnd ℂ) (φ x)
  positive : ∀ x, 0 ≤ (φ (star x * x)).re
  symmetric : ∀ r ∈ symmetries I, ∀ w, InRange I w → φ (op ρ (w.map (img r))) = φ (op ρ w)
  independent : ∀ u v, InRange I u → InRange I v →
    (∀ a ∈ u, ∀ b ∈ v, ∀ x y, I.scenario.sdpLexorder[a]? = some x → I.scenario.sdpLexorder[b]? = some y → ¬ ShareCopy x y) →
    φ (op ρ (u ++ v)) = φ (op ρ u) * φ (op ρ v)

namespace InflatedModel
variable {I : Input} {R : Type} [Ring R] [StarRing R] [Algebra ℝ R] (M : InflatedModel I R)

/-- The value of an atom (lists that are not words of operators do not occur in the program; they get the value 0). -/
noncomputable def val (a : Atom) : ℂ := if InRange I a then M.φ (op M.ρ a) else 0

/-- The value of a moment: the product of the values of its atoms. -/
noncomputable def moment (m : Mon) : ℂ := (m.map M.val).prod

/-- The number which the program associates with a moment (the moment matrix is real, InflationSDP.py 2112-2177). -/
noncomputable def value (m : Mon) : ℝ := (M.moment m).re

/-- `P` is the distribution which the model gives to the original network: the products of operators (in increasing order) which the code regards as knowable have the value that it
computes from `P`. -/
def Realises (P : List Nat → Rat) : Prop :=
  ∀ a, InRange I a → a ≠ [] → 0 ∉ a → a.Pairwise (· < ·) → knowable I a = true → ∃ x, atomMarginal I P a = some x ∧ M.val a = ((x : Rat) : ℂ)

end InflatedModel

/-- The value given to a moment is true. The value of an atom is also used for products that contain it, so it must not be just the real part of a complex value. -/
def ValueTrue (cval : Mon → ℂ) (m : Mon) (x : Rat) : Prop := (cval m).re = x ∧ (m.length ≤ 1 → cval m = ((x : Rat) : ℂ))

/-- No product of some of the factors of a moment is a number strictly between 0 and the tolerance 10⁻⁸ of the code. -/
def NoTiny (E : SdpState.Env Mon) (cval : Mon → ℂ) : Prop :=
  ∀ m ∈ E.moments, ∀ f : List Atom, (f.Sublist m ∨ f.Sublist (m.map E.dagger)) → ∀ c : Rat, cval f = ((c : Rat) : ℂ) → |c| ≤ 1 / 100000000 → c = 0

/-- The same for factors which, or whose adjoints, are given a value by `v`. -/
def NoTinyOf (E : SdpState.Env Mon) (v : List (Mon × Option Rat)) (cval : Mon → ℂ) : Prop :=
  ∀ m ∈ E.moments, ∀ f : List Atom, (f.Sublist m ∨ f.Sublist (m.map E.dagger)) → (∀ a ∈ f, ∃ b x, ([b], some x) ∈ v ∧ (a = b ∨ a = E.dagger b)) →
    ∀ c : Rat, cval f = ((c : Rat) : ℂ) → |c| ≤ 1 / 100000000 → c = 0

theorem NoTiny.of {E : SdpState.Env Mon} {cval : Mon → ℂ} (h : NoTiny E cval) (v : List (Mon × Option Rat)) : NoTinyOf E v cval := fun m hm f hf _ => h m hm f hf

/-- The distribution `P` gives no product of the knowable factors of a moment a value strictly between 0 and the tolerance 10⁻⁸ of the code. -/
def NotTiny (I : Input) (B : Built) (P : List Nat → Rat) : Prop :=
  ∀ m ∈ B.env.moments, ∀ f : List Atom, (f.Sublist m ∨ f.Sublist (m.map B.env.dagger)) → ∀ ps : List Rat,
    List.Forall₂ (fun a p => ∃ b, [b] ∈ atomicMonomials B ∧ knowable I b = true ∧ (a = b ∨ a = B.env.dagger b) ∧ atomMarginal I P b = some p) f ps → |ps.prod| ≤ 1 / 100000000 → ps.prod = 0

/-- What a call tells the program is true. Bounds that the code treats as zero (at most 10⁻⁸ in absolute value) are zero. Extra constraints are not checked here because the program
ignores them (see C48). -/
def CallTrue (E : SdpState.Env Mon) (cval : Mon → ℂ) : SdpState.Call Mon → Prop
  | .setValues v lpi _ => (∀ t ∈ v, ∀ x, t.2 = some x → ValueTrue cval t.1 x) ∧ (lpi = true → NoTinyOf E v cval)
  | .updateValues v lpi _ => (∀ t ∈ v, ∀ x, t.2 = some x → ValueTrue cval t.1 x) ∧ (lpi = true → NoTiny E cval)
  | .setLower (some l) => ∀ t ∈ l, ((t.2 : Rat) : ℝ) ≤ (cval t.1).re ∧ (isClose0 t.2 = true → t.2 = 0)
  | .setUpper (some l) => ∀ t ∈ l, (cval t.1).re ≤ ((t.2 : Rat) : ℝ) ∧ (isClose0 t.2 = true → t.2 = 0)
  | _ => True

end Verif.SdpEnd

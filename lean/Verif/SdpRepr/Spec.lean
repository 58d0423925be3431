import Verif.Canon.Spec
import Verif.Canon.Model
/-
Reduced monomials and orbits, independent of how they are computed.
-/
namespace Verif.SdpRepr
open Verif.Canon Verif.Canon.Spec

/-- No exchange of commuting neighbours ever brings two equal or two orthogonal operators next to each other. -/
def Reduced (nc om : BMat) (w : List Nat) : Prop :=
  ∀ u a b v, CommEq (fun a b => nc a b = false) w (u ++ a :: b :: v) → a ≠ b ∧ om a b = false ∧ om b a = false

/-- `v` is obtained from `w` by a symmetry and exchanges of commuting neighbours. -/
def SameOrbit (nc : BMat) (rows : List (List Nat)) (w v : List Nat) : Prop :=
  ∃ r ∈ rows, CommEq (fun a b => nc a b = false) (w.map fun x => r.getD x x) v

/-- `v` is the first word, in dictionary order, of the orbit of `w`. -/
def IsLeast (nc : BMat) (rows : List (List Nat)) (w v : List Nat) : Prop :=
  SameOrbit nc rows w v ∧ ∀ u, SameOrbit nc rows w u → LexLE v u

end Verif.SdpRepr

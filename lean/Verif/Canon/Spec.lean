/-
Independent specification for canonical forms: when are two operator words "the same"?
Nothing here refers to the algorithm.
-/
namespace Verif.Canon.Spec

/-- Words related by exchanging neighbouring commuting operators (reflexive-symmetric-transitive
closure).  `comm a b` means: operators `a` and `b` commute. -/
inductive CommEq (comm : Nat → Nat → Prop) : List Nat → List Nat → Prop
  | refl (w) : CommEq comm w w
  | symm {u v} : CommEq comm u v → CommEq comm v u
  | trans {u v w} : CommEq comm u v → CommEq comm v w → CommEq comm u w
  | swap (u a b v) : comm a b → CommEq comm (u ++ a :: b :: v) (u ++ b :: a :: v)

/-- Dictionary order on words. -/
def LexLE : List Nat → List Nat → Prop
  | [], _ => True
  | _ :: _, [] => False
  | a :: s, b :: t => a < b ∨ (a = b ∧ LexLE s t)

/-- Words over the alphabet `{x | x < N}` that are equal modulo: commuting neighbours swap, `P P = P`,
and a word with two neighbouring orthogonal operators is the zero operator, which is written `[0]`. -/
inductive OpEq (N : Nat) (comm ortho : Nat → Nat → Prop) : List Nat → List Nat → Prop
  | refl (w) : OpEq N comm ortho w w
  | symm {u v} : OpEq N comm ortho u v → OpEq N comm ortho v u
  | trans {u v w} : OpEq N comm ortho u v → OpEq N comm ortho v w → OpEq N comm ortho u w
  | swap (u a b v) : comm a b → OpEq N comm ortho (u ++ a :: b :: v) (u ++ b :: a :: v)
  | idem (u a v) : OpEq N comm ortho (u ++ a :: a :: v) (u ++ a :: v)
  | zero (u a b v) : (∀ x ∈ u ++ a :: b :: v, x < N) → ortho a b →
      OpEq N comm ortho (u ++ a :: b :: v) [0]

/-- What the operator list of a problem guarantees about its `N` operators.  Rank `0` is the zero operator;
the other ranks are grouped into measurements (`meas`), which are contiguous blocks of ranks;
two operators are orthogonal iff one is the zero operator or they are different outcomes of one measurement;
whether two operators commute only depends on their measurements; the outcomes of one
measurement commute. -/
structure OperatorList (N : Nat) (nc om : Nat → Nat → Bool) (meas : Nat → Nat) : Prop where
  pos : 0 < N
  nc_symm : ∀ a b, nc a b = nc b a
  nc_diag : ∀ a, nc a a = false
  nc_meas : ∀ a b c, 0 < a → a < N → 0 < b → b < N → meas a = meas b → nc a c = nc b c
  contiguous : ∀ a b c, 0 < a → a ≤ b → b ≤ c → c < N → meas a = meas c → meas b = meas a
  ortho_iff : ∀ a b, a < N → b < N →
    (om a b = true ↔ a = 0 ∨ b = 0 ∨ (a ≠ b ∧ meas a = meas b))

end Verif.Canon.Spec

import Verif.Orbits.Spec
import Verif.SymMM.Model
/-
What symmetrizing a moment matrix means.
-/
namespace Verif.SymMM

/-- A matrix with `N` columns and rows, and permutations of its columns (the identity not being listed) which form a group and send equal entries to
equal entries. -/
structure Consistent (N : Nat) (mm : List Nat) (perms : List (List Nat)) : Prop where
  size : mm.length = N * N
  group : Verif.Orbits.IsGroup N (List.range N :: perms)
  respects : ∀ p ∈ perms, ∀ x y, x < N * N → y < N * N → mm[x]? = mm[y]? →
    mm[permCell N p x]? = mm[permCell N p y]?

/-- The entries of the cells `x`, `y` are related by permuting the columns (and rows). -/
def Related (N : Nat) (mm : List Nat) (perms : List (List Nat)) (x y : Nat) : Prop :=
  ∃ p ∈ List.range N :: perms, mm[permCell N p x]? = mm[y]?

end Verif.SymMM

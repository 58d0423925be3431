import Verif.Orbits.Model
/-
Groups of permutations given as rows, and the orbits they define.
-/
namespace Verif.Orbits

/-- The rows form a group of permutations of `0..n-1`, the identity being listed first. -/
structure IsGroup (n : Nat) (syms : List (List Nat)) : Prop where
  ident : syms.head? = some (List.range n)
  perm : ∀ r ∈ syms, r.Perm (List.range n)
  comp : ∀ r ∈ syms, ∀ t ∈ syms, (t.map fun k => r.getD k 0) ∈ syms
  inv : ∀ r ∈ syms, ∃ u ∈ syms, (r.map fun k => u.getD k 0) = List.range n

/-- `w` is obtained from `v` by one of the symmetries. -/
def SameOrbit (syms : List (List Nat)) (v w : List Bool) : Prop := ∃ r ∈ syms, image v r = w

end Verif.Orbits

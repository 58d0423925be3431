/-
Cliques of an undirected graph on the vertices `0..n-1`, written as increasing lists.
-/
namespace Verif.Cliques

/-- An increasing list of vertices that are pairwise adjacent. -/
structure IsClique (n : Nat) (adj : Nat → Nat → Bool) (c : List Nat) : Prop where
  sorted : c.Pairwise (· < ·)
  verts : ∀ x ∈ c, x < n
  adjacent : c.Pairwise fun a b => adj a b = true

/-- A clique that no vertex extends. -/
structure IsMaximal (n : Nat) (adj : Nat → Nat → Bool) (c : List Nat) : Prop where
  clique : IsClique n adj c
  maximal : ∀ v, v < n → v ∉ c → ∃ u ∈ c, adj u v = false

/-- Dictionary order. -/
def LexLT : List Nat → List Nat → Prop
  | _, [] => False
  | [], _ :: _ => True
  | a :: s, b :: t => a < b ∨ (a = b ∧ LexLT s t)

/-- First by size, then by dictionary order. -/
def ShortLT (s t : List Nat) : Prop := s.length < t.length ∨ (s.length = t.length ∧ LexLT s t)

end Verif.Cliques

/-
Sorting and removing repetitions, shared by several models. The sorting and hashing algorithms of numpy / Python are not
modelled; only their results are.
-/
namespace Verif.Common

/-- Remove repetitions, keeping first occurrences. -/
def dedupB {α} [BEq α] : List α → List α
  | [] => []
  | a :: l => a :: (dedupB l).filter fun b => !(b == a)

/-- Insert into a sorted list. -/
def insertBy {α} (le : α → α → Bool) (x : α) : List α → List α
  | [] => [x]
  | a :: l => if le x a then x :: a :: l else a :: insertBy le x l

/-- Sorting (the sorting algorithm of numpy is not modelled). -/
def sortBy {α} (le : α → α → Bool) : List α → List α
  | [] => []
  | a :: l => insertBy le a (sortBy le l)

end Verif.Common

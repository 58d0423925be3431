import Verif.Scenario.Model
import Mathlib.Algebra.BigOperators.Group.List.Basic
/-
Model of `compute_marginal` (inflation/sdp/monomial_utils.py 15-56). A `numpy` array is its shape together with the function from index tuples
to entries; entries live in any commutative monoid with 1 (floats are modelled by exact numbers, SymPy expressions are allowed by the code too).
-/
namespace Verif.Marginal

/-- A row of the rectified atom: party (from 1), setting, outcome (`atom[:, 0]`, `atom[:, -2]`, `atom[:, -1]`). -/
structure Row where
  party : Nat
  setting : Nat
  outcome : Nat
deriving DecidableEq, Repr

variable {R : Type*} [AddCommMonoid R]

/-- `np.sum(arr, axis=...)[idx]`: every axis comes with its length and whether it is summed over; `idx` indexes the remaining axes. An index
tuple that is too short, which raises in numpy, gives 0 here. -/
def sumAxes : List (Nat × Bool) → (List Nat → R) → List Nat → R
  | [], f, _ => f []
  | (d, true) :: s, f, idx => ((List.range d).map fun i => sumAxes s (fun t => f (i :: t)) idx).sum
  | (_, false) :: _, _, [] => 0
  | (_, false) :: s, f, i :: idx => sumAxes s (fun t => f (i :: t)) idx

/-- `input_list = np.zeros(n); input_list[participating_parties] = inputs` (the last of repeated assignments wins), monomial_utils.py 50-51. -/
def inputList (n : Nat) (atom : List Row) : List Nat :=
  atom.foldl (fun l t => l.set (t.party - 1) t.setting) (List.replicate n 0)

/-- `compute_marginal`, monomial_utils.py 41-56. `outs`, `ins` are the two halves of the shape of `P`; `indices_to_sum` are the outcome axes
of the parties that do not occur in the atom. -/
def computeMarginal [One R] (outs ins : List Nat) (P : List Nat → R) (atom : List Row) : R :=
  if atom.isEmpty then 1
  else
    let axes := (outs.zipIdx.map fun t => (t.1, !(atom.any fun row => row.party - 1 == t.2))) ++ ins.map fun d => (d, false)
    sumAxes axes P (atom.map (·.outcome) ++ inputList outs.length atom)

end Verif.Marginal

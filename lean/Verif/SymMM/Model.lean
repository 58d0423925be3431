import Verif.Common.Unique
/-
Model of the symmetrization of the moment matrix, sdp/quantum_tools.py 160-238 (`apply_inflation_symmetries`). The matrix, with `N`
columns, is given by its list of entries row after row (`momentmatrix.ravel()`); cell `(r, c)` is position `r * N + c`.
-/
namespace Verif.SymMM
open Verif.Common

/-- `(permutation[rows], permutation[cols])` after `np.unravel_index`, quantum_tools.py 208, 214, as a position of the
flattened matrix. -/
def permCell (N : Nat) (p : List Nat) (x : Nat) : Nat := p.getD (x / N) 0 * N + p.getD (x % N) 0

/-- Local variables of the loop, quantum_tools.py 194-204. -/
structure St where
  /-- `inverse`, flattened -/
  inverse : List Nat
  /-- `flat_pos` -/
  flatPos : List Nat
  /-- `repr_values` -/
  repr : List Nat
  /-- `inversion_tracker` -/
  tracker : List Nat
  /-- `new_indices` -/
  newIdx : List Nat
deriving DecidableEq, Repr

/-- Initial values, quantum_tools.py 194-204. -/
def St.init (mm : List Nat) : St where
  inverse := npUniqueInv mm
  flatPos := npUniquePos mm
  repr := npUnique mm
  tracker := List.range (npUnique mm).length
  newIdx := List.range (npUnique mm).length

/-- One round of the loop, quantum_tools.py 206-232; `none` when the assertion of lines 211-213 fails. The local counters
`prev_unique_count` and `new_unique_count` are the lengths of `new_indices` and of `unique_values`; `rows, cols` are those of the current
`flat_pos`, which changes only together with the count. -/
def step (N : Nat) (s : St) (p : List Nat) : Option St :=
  if s.newIdx = s.flatPos.map (fun x => s.inverse.getD x 0) then
    let f := List.zipWith min s.newIdx (s.flatPos.map fun x => s.inverse.getD (permCell N p x) 0)
    let inv := npUniqueInv f
    let pos := npUniquePos f
    if (npUnique f).length < s.newIdx.length then
      some { inverse := s.inverse.map fun k => inv.getD k 0
             flatPos := pos.map fun k => s.flatPos.getD k 0
             repr := pos.map fun k => s.repr.getD k 0
             tracker := s.tracker.map fun k => inv.getD k 0
             newIdx := List.range (npUnique f).length }
    else some { s with newIdx := f }
  else none

/-- `apply_inflation_symmetries`, quantum_tools.py 160-238: symmetrized matrix, orbits (dictionary from old to new indices) and
representatives; `none` when an assertion fails. `min(initial=0)` of an empty matrix is not modelled: numpy raises there, the
model returns empty results. -/
def applySymmetries (N : Nat) (mm : List Nat) (perms : List (List Nat)) : Option (List Nat × List (Nat × Nat) × List Nat) :=
  if perms = [] then
    let r := List.range (mm.foldl max 0 + 1)
    some (mm, r.zip r, r)
  else
    (perms.foldlM (step N) (St.init mm)).map fun s =>
      let old := npUnique mm
      let off := old.headD 0
      let idx := s.newIdx.map (· + off)
      (s.inverse.map fun k => idx.getD k 0, old.zip (s.tracker.map fun k => idx.getD k 0), s.repr)

end Verif.SymMM

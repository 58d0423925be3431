import Verif.Common.Sort
/-
Models of the orbit computations of the LP: `_discover_inflation_orbits` (InflationLP.py 1618-1660) and of
the cache of atomic monomials `_AtomicMonomial` (InflationLP.py 943-980). Bit vectors are lists of Booleans; a symmetry
is a row of ranks (`lexorder_symmetries`).
-/
namespace Verif.Orbits
open Verif.Common

/-- `vec[row]` (numpy fancy indexing), InflationLP.py 971, 1648. -/
def image (v : List Bool) (row : List Nat) : List Bool := row.map fun k => v.getD k false

/-- One round of the loop of `_discover_inflation_orbits`, InflationLP.py 1640-1657; `o` is the array `orbits`, `none` is the entry -1. -/
def orbitStep (syms : List (List Nat)) (vecs : List (List Bool)) (o : List (Option Nat)) (i : Nat) : List (Option Nat) :=
  match o.getD i none with
  | some _ => o
  | none =>
    let initial := vecs.getD i []
    let variants := ((syms.drop 1).map (image initial)).filter fun w => !(w == initial)
    let remaining := variants.filterMap fun w => vecs.idxOf? w
    o.mapIdx fun j old => if remaining.contains j then some i else if j = i then some i else old

/-- `_discover_inflation_orbits`, InflationLP.py 1618-1660 (the bit vectors are distinct, so the hash table maps a vector to
its position). -/
def discoverOrbits (syms : List (List Nat)) (vecs : List (List Bool)) : List (Option Nat) :=
  if 1 < syms.length then
    (List.range vecs.length).foldl (orbitStep syms vecs) (List.replicate vecs.length none)
  else (List.range vecs.length).map some

/-- Order of bit vectors, False before True, first entry most significant (`np.lexsort(mat.T[::-1])`, InflationLP.py 972-973). -/
def bvLe : List Bool → List Bool → Bool
  | [], _ => true
  | _ :: _, [] => false
  | a :: s, b :: t => (!a && b) || (a == b && bvLe s t)

/-- `np.flatnonzero`. -/
def flatnonzero (v : List Bool) : List Nat := (List.range v.length).filter fun k => v.getD k false

/-- `key = blank_bool_vec.copy(); key[array1d] = True`, InflationLP.py 962-963. -/
def boolKey (n : Nat) (a : List Nat) : List Bool := (List.range n).map fun k => a.contains k

/-- `_atomic_monomial_from_hash`: keys to the operator list (`as_lexmon`) of the stored monomial. -/
abbrev Cache := List (List Bool × List Nat)

/-- `_AtomicMonomial`, InflationLP.py 943-980: result and new cache (entries added later shadow earlier ones; they are
never re-added with a different value, see the properties). -/
def atomicMonomial (n : Nat) (syms : List (List Nat)) (cache : Cache) (a : List Nat) : Cache × List Nat :=
  let key := boolKey n a
  match cache.lookup key with
  | some m => (cache, m)
  | none =>
    if syms.length = 1 then ((key, a) :: cache, a)
    else
      let imgs := sortBy bvLe (syms.map (image key))
      let mon := flatnonzero (imgs.getLastD [])
      (imgs.map (fun k => (k, mon)) ++ cache, mon)

/-- The cache after a history of calls, starting from the empty cache (InflationLP.py 1247). -/
def cacheAfter (n : Nat) (syms : List (List Nat)) (history : List (List Nat)) : Cache :=
  history.foldl (fun c a => (atomicMonomial n syms c a).1) []

end Verif.Orbits

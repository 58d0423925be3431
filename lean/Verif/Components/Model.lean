import Verif.Scenario.Model
import Verif.Common.Sort
/-
Model of the factorisation of moments: `nb_classify_disconnected_components`, `nb_overlap_matrix`,
`nb_exists_shared_source` (fast_npa.py) and `factorize_monomial_1d`, `ever_factorizes` (InflationProblem.py).
-/
namespace Verif.Components
open Verif.Scenario Verif.Common

/-- The inner `while search_next.any()` loop, fast_npa.py 126-131: `new` is the component found so far, `search` the
vertices added in the last round. The fuel bounds the number of rounds (`closure_correct` shows that it suffices). -/
def closure (n : Nat) (adj : Nat → Nat → Bool) : Nat → (Nat → Bool) → (Nat → Bool) → (Nat → Bool)
  | 0, new, _ => new
  | f + 1, new, search =>
    if (List.range n).any search then
      let new' := fun j => new j || (List.range n).any fun k => search k && adj k j
      closure n adj f new' fun j => new' j != new j
    else new

/-- The component of vertex `i`, fast_npa.py 122-131. -/
def component (n : Nat) (adj : Nat → Nat → Bool) (i : Nat) : Nat → Bool :=
  closure n adj (n + 1) (fun j => j == i) (fun j => j == i)

/-- One round of `for i in range(n)`, fast_npa.py 120-133. The labels are stored in an array of 8-bit unsigned
integers, so the counter is reduced modulo 256 when stored. State: labels and counter. -/
def labelStep (n : Nat) (adj : Nat → Nat → Bool) (st : (Nat → Nat) × Nat) (i : Nat) : (Nat → Nat) × Nat :=
  if st.1 i = 0 then
    (fun j => if component n adj i j then st.2 % 256 else st.1 j, st.2 + 1)
  else st

/-- `nb_classify_disconnected_components`, fast_npa.py 91-134 (the compiled path, `nopython=True`). The final subtraction of
1 is in 8-bit arithmetic. -/
def classify (n : Nat) (adj : Nat → Nat → Bool) : List Nat :=
  if n ≤ 1 || ((List.range n).all fun i => (List.range n).all fun j => adj i j) then List.replicate n 0
  else
    let st := (List.range n).foldl (labelStep n adj) (fun _ => 0, 1)
    (List.range n).map fun j => (st.1 j + 255) % 256

/-- `nb_exists_shared_source`, fast_npa.py 537-562: some source is measured by both (non-zero labels) with equal copy
labels. -/
def existsSharedSource (I J : List Nat) : Bool :=
  let common := (List.zip I J).filter fun t => t.1 != 0 && t.2 != 0
  if common.isEmpty then false
  else !(common.all fun t => t.1 != t.2)

/-- `nb_overlap_matrix`, fast_npa.py 251-277: identity, plus the strict lower triangle, plus its transpose. -/
def overlapMatrix (inds : List (List Nat)) (i j : Nat) : Bool :=
  let low := fun i j => decide (j < i) && existsSharedSource (inds.getD i []) (inds.getD j [])
  i == j || (low i j || low j i)

/-- Dictionary order on rows, as used by `np.unique(..., axis=0)`. -/
def rowLe : List Nat → List Nat → Bool
  | [], _ => true
  | _ :: _, [] => false
  | a :: s, b :: t => decide (a < b) || (a == b && rowLe s t)

/-- `all_unique_inflation_indices = np.unique(np.vstack(inflation_indices_per_party), axis=0)`,
InflationProblem.py 331-333. -/
def uniqueIndices (S : Scenario) : List (List Nat) :=
  sortBy rowLe (dedupB ((List.range S.nParties).flatMap S.inflationIndices))

/-- `_lexorder_for_factorization[rank]`, InflationProblem.py 336-338, 395-398: number of the operator's copy labels
in `all_unique_inflation_indices`. -/
def position (S : Scenario) (rank : Nat) : Nat :=
  match S.lexorder[rank]? with
  | some op => (uniqueIndices S).idxOf op.copies
  | none => 0

/-- `ever_factorizes`, InflationProblem.py 293-305: over all pairs of parties (including a party with itself), is there a pair
with no shared source or with a shared source that has not exactly one copy? -/
def everFactorizes (S : Scenario) : Bool :=
  (List.range S.nParties).any fun p => (List.range S.nParties).any fun q =>
    decide (p ≤ q) &&
    (let shared := (List.range S.nSources).filter fun s => S.hyp s p && S.hyp s q
     shared.isEmpty || !(shared.all fun s => S.level s == 1))

/-- The general path of `factorize_monomial_1d`, InflationProblem.py 843-850. `np.unique(return_inverse=True)` is the
sorted list of distinct positions together with the index of each entry in it. -/
def factorizeGeneral (S : Scenario) (mon : List Nat) : List (List Nat) :=
  let pos := mon.map (position S)
  let uniq := sortBy (fun a b => decide (a ≤ b)) (dedupB pos)
  let adj := fun i j => overlapMatrix (uniqueIndices S) (uniq.getD i 0) (uniq.getD j 0)
  let labels := classify uniq.length adj
  let nof := labels.foldl max 0 + 1
  (List.range nof).map fun i => mon.filter fun a => labels.getD (uniq.idxOf (position S a)) 0 == i

/-- `factorize_monomial_1d(mon, canonical_order=False)`, InflationProblem.py 817-855. -/
def factorize (S : Scenario) (mon : List Nat) : List (List Nat) :=
  if !everFactorizes S || decide (mon.length ≤ 1) then [mon] else factorizeGeneral S mon

end Verif.Components

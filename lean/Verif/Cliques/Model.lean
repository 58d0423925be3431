/-
Model of `all_and_maximal_cliques`, utils.py 177-221: breadth-first search over a queue of pairs
(clique, candidate vertices that extend it).
-/
namespace Verif.Cliques

/-- A queue entry `(base, cnbrs)`. -/
abbrev Entry := List Nat × List Nat

/-- `np.flatnonzero(np.triu(adjmat, k=1)[u])`, utils.py 203-205. -/
def upperNbrs (n : Nat) (adj : Nat → Nat → Bool) (u : Nat) : List Nat :=
  (List.range n).filter fun v => decide (u < v) && adj u v

/-- The loop body pushing the extensions of `base`, utils.py 216-220:
for the `i`-th candidate `u`, `base + [u]` with the later candidates `cnbrs[i+1:]` that are in `nbrs[u]`. -/
def children (n : Nat) (adj : Nat → Nat → Bool) (base : List Nat) : List Nat → List Entry
  | [] => []
  | u :: rest => (base ++ [u], rest.filter fun w => (upperNbrs n adj u).contains w) ::
      children n adj base rest

/-- The entries pushed when `(base, cnbrs)` is popped, utils.py 211-220. (The variable the code calls
`there_is_a_cutoff` is true when there is *no* cutoff.) -/
def pushed (n : Nat) (adj : Nat → Nat → Bool) (maxN : Int) (isolate : Bool) (e : Entry) : List Entry :=
  if isolate && e.2.isEmpty then []
  else if decide (maxN ≤ 0) || decide ((e.1.length : Int) < maxN) then children n adj e.1 e.2
  else []

/-- The `while queue` loop, utils.py 208-220; returns (cliques popped, maximal cliques). The fuel bounds the number of
iterations; `enoughFuel` below is sufficient (`bfs_fuel`). -/
def bfs (n : Nat) (adj : Nat → Nat → Bool) (maxN : Int) (isolate : Bool) :
    Nat → List Entry → List (List Nat) × List (List Nat)
  | 0, _ => ([], [])
  | _ + 1, [] => ([], [])
  | f + 1, e :: q =>
    let r := bfs n adj maxN isolate f (q ++ pushed n adj maxN isolate e)
    (e.1 :: r.1,
      if isolate && e.2.isEmpty && !(q.any fun s => e.1.all fun x => s.1.contains x) then e.1 :: r.2
      else r.2)

/-- An upper bound on the number of iterations. -/
def enoughFuel (q : List Entry) : Nat := (q.map fun e => 2 ^ e.2.length).sum

/-- `queue = deque(zip(initial_cliques, initial_cnbrs))`, utils.py 201-206. -/
def initialQueue (n : Nat) (adj : Nat → Nat → Bool) : List Entry :=
  (List.range n).map fun u => ([u], upperNbrs n adj u)

/-- `all_and_maximal_cliques`, utils.py 177-221. -/
def allAndMaximalCliques (n : Nat) (adj : Nat → Nat → Bool) (maxN : Int) (isolate : Bool) :
    List (List Nat) × List (List Nat) :=
  let r := bfs n adj maxN isolate (enoughFuel (initialQueue n adj)) (initialQueue n adj)
  ([] :: r.1, r.2)

end Verif.Cliques

import Verif.Scenario.Model
import Verif.Canon.Model
/-
Model of the commutation rules: `nb_operators_commute`, `commutation_matrix` (fast_npa.py), the
orthogonality matrix of `InflationSDP.__init__`, and the translation of the DAG into the tables those rules read
(InflationProblem.py 241-271).
-/
namespace Verif.Scenario
open Verif.Canon (BMat)

/-- `nb_operators_commute`, fast_npa.py 628-689.  `rel` is
`sources_to_check_for_pairwise[party1, party2]`, one entry (0, 1 or 2) per source. The
triples are (relevance, copy in operator 1, copy in operator 2) per source. -/
def operatorsCommute (tbl : Nat → Nat → List Nat) (op1 op2 : Op) : Bool :=
  let rel := tbl (op1.party - 1) (op2.party - 1)
  let trips := List.zip rel (List.zip op1.copies op2.copies)
  if !(trips.any fun t => decide (2 ≤ t.1)) then true                                   -- Case 1
  else if (trips.filter fun t => decide (2 ≤ t.1)).all fun t => t.2.1 != t.2.2 then true -- Case 2
  else if !((trips.filter fun t => decide (1 ≤ t.1)).all fun t => t.2.1 == t.2.2) then false -- Case 3
  else if op1.party != op2.party then true                                              -- Case 4a
  else op1.setting == op2.setting                                                       -- Case 4b

/-- `commutation_matrix`, fast_npa.py 460-503: the strict upper triangle is filled and added to its
transpose; `commuting=True` gives the zero matrix. Entries outside the list are `false`. -/
def commutationMatrix (lex : List Op) (tbl : Nat → Nat → List Nat) (commuting : Bool) : BMat :=
  fun i j =>
    if commuting then false
    else
      let up := fun i j => match lex[i]?, lex[j]? with
        | some a, some b => decide (i < j) && !(operatorsCommute tbl a b)
        | _, _ => false
      up i j || up j i

/-- `_default_notcomm` of InflationProblem, InflationProblem.py 402-410: the zero matrix if no source is
nonclassical. -/
def Scenario.notcomm (S : Scenario) (tbl : Nat → Nat → List Nat) (anyQuantum : Bool) : BMat :=
  if anyQuantum then commutationMatrix S.lexorder tbl false else fun _ _ => false

/-- `np.pad(notcomm, ((1,0),(1,0)))` of InflationSDP.__init__, InflationSDP.py 187-189: the zero operator
gets rank 0 and commutes with everything. -/
def padMat (m : BMat) : BMat := fun i j => decide (0 < i) && decide (0 < j) && m (i - 1) (j - 1)

/-- `zero_operator`, InflationSDP.py 126-127: an all-zero row. -/
def zeroOp (nSources : Nat) : Op := ⟨0, List.replicate nSources 0, 0, 0⟩

/-- `_default_lexorder`, InflationSDP.py 129-131. -/
def Scenario.sdpLexorder (S : Scenario) : List Op := zeroOp S.nSources :: S.lexorder

/-- `_orthomat`, InflationSDP.py 167-177. -/
def Scenario.orthomat (S : Scenario) : BMat := fun i j =>
  if i < S.sdpLexorder.length ∧ j < S.sdpLexorder.length then
    if i = 0 ∨ j = 0 then true
    else match S.sdpLexorder[i]?, S.sdpLexorder[j]? with
      | some a, some b => i != j && (a.outcome != b.outcome &&
          (a.party == b.party && a.copies == b.copies && a.setting == b.setting))
      | _, _ => false
  else false

/-! ### From the DAG to the tables -/

/-- User input of `InflationProblem`: party names in order, the DAG as a dictionary (association list)
from parents to children, the nonclassical intermediate latents, the
other intermediate latents, and the sources declared classical. Nodes are numbers instead of strings. -/
structure DagInput where
  names : List Nat
  dag : List (Nat × List Nat)
  nonclassicalLatents : List Nat
  classicalLatents : List Nat
  classicalSources : List Nat

namespace DagInput
variable (D : DagInput)

/-- `self.dag[node]` (a missing key is never read by the code; here it is the empty list). -/
def children (n : Nat) : List Nat := (D.dag.lookup n).getD []

/-- `_actual_sources`, InflationProblem.py 170-176: keys of the DAG that are neither parties nor intermediate
latents, in insertion order. -/
def sources : List Nat := (D.dag.map Prod.fst).filter fun n =>
  !(D.names.contains n) && !(D.nonclassicalLatents.contains n || D.classicalLatents.contains n)

/-- `quantum_source_bonus = self._nonclassical_sources[source_idx]`, InflationProblem.py 178-191, 250. -/
def bonus (src : Nat) : Nat := if D.classicalSources.contains src then 0 else 1

/-- `names_to_integers`, InflationProblem.py 212-213. -/
def partyIdx (n : Nat) : Nat := D.names.idxOf n

/-- In-place update of a two-index array. -/
def upd2 {α} (T : Nat → Nat → α) (i j : Nat) (v : α) : Nat → Nat → α :=
  fun i' j' => if i' = i ∧ j' = j then v else T i' j'

/-- The body of the loop over sources that fills
`sources_to_check_for_party_pair_commutation[:, :, source]`, InflationProblem.py 249-271.
`T` is the slice for this source, initially zero. Children sets are iterated in list order (the result
does not depend on it, see the properties). -/
def pairTable (src : Nat) : Nat → Nat → Nat :=
  let direct := (D.children src).filter (D.names.contains ·)
  let latent := (D.children src).filter fun c => !(D.names.contains c)
  let T1 := direct.foldl (fun T c => upd2 T (D.partyIdx c) (D.partyIdx c) (1 + D.bonus src))
    (fun _ _ => 0)
  latent.foldl (fun T l =>
      let conn := if D.nonclassicalLatents.contains l && D.bonus src == 1 then 1 else 0
      (D.children l).foldl (fun T d =>
        (D.children l).foldl (fun T d2 =>
          upd2 T (D.partyIdx d) (D.partyIdx d2) (max (T (D.partyIdx d) (D.partyIdx d2)) (1 + conn))) T) T)
    T1

/-- `hypergraph[source, :]`, InflationProblem.py 256, 266: set to 1 for every direct child and every descendant via a
latent. -/
def hypRow (src : Nat) : Nat → Nat :=
  let direct := (D.children src).filter (D.names.contains ·)
  let latent := (D.children src).filter fun c => !(D.names.contains c)
  let h1 := direct.foldl (fun (h : Nat → Nat) c => fun p => if p = D.partyIdx c then 1 else h p)
    (fun _ => 0)
  latent.foldl (fun h l =>
    (D.children l).foldl (fun (h : Nat → Nat) d => fun p => if p = D.partyIdx d then 1 else h p) h) h1

/-- `sources_to_check_for_party_pair_commutation[p, q]` as a list over the sources. -/
def tbl (p q : Nat) : List Nat := D.sources.map fun s => D.pairTable s p q

end DagInput
end Verif.Scenario

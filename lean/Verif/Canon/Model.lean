import Verif.Common.Sort
/-
Model of the monomial canonicalisation of `inflation/sdp/fast_npa.py`.

A monomial in "1d array" form is a `List Nat` of operator ranks (indices into the lexorder).
The matrices `notcomm` and `orthomat` are boolean functions of two ranks
(simplification: `numpy` boolean matrices are total lookup functions; an
out-of-range rank, which raises `IndexError` in Python, is not modelled).
-/
namespace Verif.Canon

/-- `np.sort` of a monomial, fast_npa.py 602, 733. -/
def ascending (w : List Nat) : List Nat := Verif.Common.sortBy (fun a b => decide (a ≤ b)) w

/-- A boolean matrix indexed by operator ranks (`notcomm`, `orthomat`). -/
abbrev BMat := Nat → Nat → Bool

/-- `sub_notcomm.all()` of `nb_lexmon_to_canonical`, fast_npa.py 589-590:
every entry of `notcomm[lexmon,:][:,lexmon]` is set. -/
def subAll (nc : BMat) (w : List Nat) : Bool :=
  w.all fun a => w.all fun b => nc a b

/-- `sub_notcomm.any()` of `nb_lexmon_to_canonical`, fast_npa.py 589, 592. -/
def subAny (nc : BMat) (w : List Nat) : Bool :=
  w.any fun a => w.any fun b => nc a b

/-- The loop `for op in range(1, lexmon.shape[0])` of `nb_lexmon_to_canonical`,
fast_npa.py 595-604.  `pre` are the operators at positions `< op`, `rest` those at positions
`≥ op`; the accumulator is the pair `(minimum, minimum_idx)`.  The test
`nc_ops_position.size < 1` says that no operator before `op` fails to commute with it. -/
def scanMin (nc : BMat) : (pre rest : List Nat) → (op : Nat) → (acc : Nat × Nat) → Nat × Nat
  | _, [], _, acc => acc
  | pre, c :: rest, op, (minimum, idx) =>
    scanMin nc (pre ++ [c]) rest (op + 1)
      (if pre.any (fun b => nc c b) then (minimum, idx)
       else if c < minimum then (c, op) else (minimum, idx))

/-- One iteration of the `while` body of `nb_lexmon_to_canonical`, fast_npa.py 582-612:
splits the monomial into `m1` (appended to the result) and `m2` (the new leftover).
The branch `lexmon.shape[0] <= 1` (lines 584-585) cannot be taken inside the loop and is the `[]` case. -/
def splitStep (nc : BMat) : List Nat → List Nat × List Nat
  | [] => ([], [])
  | a :: t =>
    if subAll nc (a :: t) then (a :: t, [])
    else if !(subAny nc (a :: t)) then (ascending (a :: t), [])
    else
      let r := scanMin nc [a] t 1 (a, 0)
      if r.1 ≤ a then ([(a :: t).getD r.2 0], (a :: t).eraseIdx r.2)
      else ([a], t)

theorem scanMin_idx_lt (nc : BMat) (pre rest : List Nat) (op : Nat) (acc : Nat × Nat)
    (h : acc.2 < op + rest.length) (hop : acc.2 < op) :
    (scanMin nc pre rest op acc).2 < op + rest.length := by
  induction rest generalizing pre op acc with
  | nil => simpa [scanMin] using h
  | cons c rest ih =>
    obtain ⟨m, i⟩ := acc
    simp only [scanMin, List.length_cons] at *
    have e : op + (rest.length + 1) = (op + 1) + rest.length := by omega
    rw [e]
    apply ih
    · split
      · simp; omega
      · split <;> simp <;> omega
    · split
      · simp; omega
      · split <;> simp; omega

theorem splitStep_length (nc : BMat) (a : Nat) (t : List Nat) :
    (splitStep nc (a :: t)).2.length < (a :: t).length := by
  rw [splitStep]
  split
  · simp
  · split
    · simp
    · have h := scanMin_idx_lt nc [a] t 1 (a, 0) (by simp; omega) (by simp)
      dsimp only
      split
      · rw [List.length_eraseIdx]
        simp only [List.length_cons] at *
        split <;> omega
      · simp

/-- `nb_lexmon_to_canonical`, fast_npa.py 563-626: `while leftover.shape[0] > 1` peel off `m1`;
a last leftover operator is appended at the end. -/
def lexmonToCanonical (nc : BMat) (w : List Nat) : List Nat :=
  match w with
  | [] => []
  | [a] => [a]
  | a :: b :: t =>
    (splitStep nc (a :: b :: t)).1 ++ lexmonToCanonical nc (splitStep nc (a :: b :: t)).2
termination_by w.length
decreasing_by exact splitStep_length nc a (b :: t)

/-- `remove_projector_squares`, fast_npa.py 354-374: drop every entry equal to its predecessor. -/
def removeSquares : List Nat → List Nat
  | [] => []
  | [a] => [a]
  | a :: b :: t => if b = a then removeSquares (b :: t) else a :: removeSquares (b :: t)

/-- The loop of `lexmon_is_zero`, fast_npa.py 748-750: some `orthomat[lexmon[i], lexmon[i-1]]`. -/
def hasOrthoPair (om : BMat) : List Nat → Bool
  | [] => false
  | [_] => false
  | a :: b :: t => om b a || hasOrthoPair om (b :: t)

/-- `lexmon_is_zero`, fast_npa.py 744-751. -/
def lexmonIsZero (om : BMat) (w : List Nat) : Bool :=
  w == [0] || hasOrthoPair om w

/-- `to_canonical_1d_internal`, fast_npa.py 692-740. -/
def toCanonical (nc om : BMat) (commuting applyOnlyCommutations : Bool) (w : List Nat) : List Nat :=
  if w.length ≤ 1 then w
  else
    let new := if commuting then ascending w else lexmonToCanonical nc w
    if applyOnlyCommutations then new
    else removeSquares (if lexmonIsZero om new then [0] else new)

end Verif.Canon

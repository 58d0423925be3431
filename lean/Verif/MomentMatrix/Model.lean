import Verif.Canon.Model
/-
Model of the construction of the moment matrix, sdp/quantum_tools.py 76-153 (`calculate_momentmatrix_1d_internal`).
-/
namespace Verif.MomentMatrix
open Verif.Canon

/-- Comparison of Python tuples of integers. -/
def lexLe : List Nat → List Nat → Bool
  | [], _ => true
  | _ :: _, [] => false
  | a :: s, b :: t => decide (a < b) || (a == b && lexLe s t)

/-- `min` of two tuples (the first one is returned on a tie). -/
def lexMin (u v : List Nat) : List Nat := if lexLe u v then u else v

/-- `dot_mon`, fast_npa.py 38-66: the first monomial reversed followed by the second. -/
def dotMon (m1 m2 : List Nat) : List Nat := m1.reverse ++ m2

/-- The key of the product of two columns, quantum_tools.py 125-140; `none` when `np.all(mon_v1)` fails. -/
def monHash (nc om : BMat) (commuting : Bool) (m1 m2 : List Nat) : Option (List Nat) :=
  let v1 := toCanonical nc om commuting false (dotMon m1 m2)
  if v1.contains 0 then none
  else if 1 < v1.length && !commuting then
    some (lexMin v1 (toCanonical nc om commuting true v1.reverse))
  else some v1

/-- Variables of the loop: `momentmatrix` (as a function of row and column), `canonical_mon_to_idx` (association list) and `varidx`,
quantum_tools.py 115-118. -/
structure St where
  mat : Nat → Nat → Nat
  tbl : List (List Nat × Nat)
  varidx : Nat

/-- Initial values, quantum_tools.py 115-118. -/
def St.init : St := ⟨fun _ _ => 0, [], 1⟩

/-- `momentmatrix[i, j] = momentmatrix[j, i] = v`. -/
def setSym (mat : Nat → Nat → Nat) (i j v : Nat) : Nat → Nat → Nat :=
  fun a b => if (a = i ∧ b = j) ∨ (a = j ∧ b = i) then v else mat a b

/-- One round of the loop, quantum_tools.py 119-152. -/
def step (nc om : BMat) (commuting : Bool) (cols : List (List Nat)) (s : St) (ij : Nat × Nat) : St :=
  match monHash nc om commuting (cols.getD ij.1 []) (cols.getD ij.2 []) with
  | none => s
  | some h =>
    match s.tbl.lookup h with
    | some v => { s with mat := setSym s.mat ij.1 ij.2 v }
    | none => ⟨setSym s.mat ij.1 ij.2 s.varidx, s.tbl ++ [(h, s.varidx)], s.varidx + 1⟩

/-- `combinations_with_replacement(enumerate(cols), 2)`, quantum_tools.py 120, as pairs of positions. -/
def pairs (n : Nat) : List (Nat × Nat) :=
  (List.range n).flatMap fun i => ((List.range n).filter fun j => decide (i ≤ j)).map fun j => (i, j)

/-- `calculate_momentmatrix_1d_internal`, quantum_tools.py 76-153. -/
def momentMatrix (nc om : BMat) (commuting : Bool) (cols : List (List Nat)) : St :=
  (pairs cols.length).foldl (step nc om commuting cols) St.init

end Verif.MomentMatrix

import Verif.SdpWriter.Model
import Verif.SdpSolver.Psd
/-
How a file in sparse SDPA format is read and what it says, and what the exported problem says. Independent of how the writer works.
-/
namespace Verif.SdpWriter
open Verif.Text Verif.State Verif.SdpSolver

variable {K : Type} {n : Nat}

/-- A semidefinite program in SDPA form: number of variables, sizes of the blocks (negative for diagonal blocks), cost vector, entries (matrix number, block, row, column,
value). It stands for: minimise `c · x` such that `F₁ x₁ + … + Fₘ xₘ - F₀` is positive semidefinite. -/
structure Sdpa (K : Type) where
  nvars : Nat
  blocks : List Int
  cost : List K
  entries : List (Nat × Nat × Nat × Nat × K)
deriving DecidableEq

/-- Brackets, braces, commas and tabs are ignored in the header (SDPA format). -/
def blank (s : Str) : Str := s.map fun c => if c ∈ ['(', ')', '{', '}', ',', '\t'] then ' ' else c

/-- Read an integer. -/
def readInt : Str → Option Int
  | '-' :: s => (readNat s).map fun (k : Nat) => -(k : Int)
  | s => (readNat s).map fun (k : Nat) => (k : Int)

/-- The number a line starts with. -/
def headNat (s : Str) : Option Nat := (words s).head?.bind readNat

/-- Read an entry. -/
def readLn (num : Str → Option K) (s : Str) : Option (Nat × Nat × Nat × Nat × K) :=
  match splitAt '\t' s with
  | [a, b, i, j, q] =>
    (readNat a).bind fun a => (readNat b).bind fun b => (readNat i).bind fun i => (readNat j).bind fun j => (num q).map fun q => (a, b, i, j, q)
  | _ => none

/-- Read a file: comments start with a quotation mark; then the number of variables, the number of blocks, the sizes, the cost vector, and the entries. -/
def readSdpa (num : Str → Option K) (file : Str) : Option (Sdpa K) :=
  match ((splitAt '\n' file).filter fun l => !l.isEmpty).dropWhile fun l => l.head? == some '"' with
  | a :: b :: c :: d :: rest => do
    let nv ← headNat a
    let nb ← headNat b
    let blocks ← ((words (blank c)).take nb).mapM readInt
    let cost ← ((words (blank d)).take nv).mapM num
    let entries ← rest.mapM (readLn num)
    return ⟨nv, blocks, cost, entries⟩
  | _ => none

variable [Field K] [LinearOrder K]

/-- The entry at row `i`, column `j` of block `b` of `Σ Fₖ xₖ - F₀`; only one triangle is given. -/
def Sdpa.at (s : Sdpa K) (x : Nat → K) (b i j : Nat) : K :=
  (s.entries.map fun e => if e.2.1 = b ∧ ((e.2.2.1 = i ∧ e.2.2.2.1 = j) ∨ (e.2.2.1 = j ∧ e.2.2.2.1 = i)) then
    (if e.1 = 0 then -e.2.2.2.2 else e.2.2.2.2 * x e.1) else 0).sum

/-- The constraints of the program: block number `k + 1` is positive semidefinite; a block of negative size is diagonal. -/
def Sdpa.Feasible (s : Sdpa K) (x : Nat → K) : Prop :=
  ∀ (k : Nat) (z : Int), s.blocks[k]? = some z →
    if 0 < z then PSD (fun i j : Fin z.toNat => s.at x (k + 1) (i.val + 1) (j.val + 1))
    else ∀ i : Nat, i < z.natAbs → 0 ≤ s.at x (k + 1) (i + 1) (i + 1)

/-- The cost `Σ cₖ xₖ`, which is minimised. -/
def Sdpa.value (s : Sdpa K) (x : Nat → K) : K := (s.cost.mapIdx fun k c => c * x (k + 1)).sum

/-- Every entry lies in a declared block, in the upper triangle or on the diagonal of a diagonal block, and uses a declared variable. -/
def Sdpa.InRange (s : Sdpa K) : Prop :=
  s.cost.length = s.nvars ∧ ∀ e ∈ s.entries, e.1 ≤ s.nvars ∧ 1 ≤ e.2.1 ∧ ∃ z, s.blocks[e.2.1 - 1]? = some z
    ∧ 1 ≤ e.2.2.1 ∧ e.2.2.1 ≤ e.2.2.2.1 ∧ e.2.2.2.1 ≤ z.natAbs ∧ (z < 0 → e.2.2.1 = e.2.2.2.1)

/-- The value of a linear expression. -/
def lin (d : Dict Nat K) (v : Nat → K) : K := (d.map fun t => t.2 * v t.1).sum

/-- The constraints of the problem on the values of the moments. -/
structure Prob.Feasible (p : Prob K n) (v : Nat → K) : Prop where
  zero : v 0 = 0
  one : v 1 = 1
  known : ∀ t ∈ p.known, v t.1 = t.2
  semi : ∀ t ∈ p.semi, v t.1 = t.2.1 * v t.2.2
  psd : PSD fun i j => v (p.mm i j)
  upper : ∀ t ∈ p.upper, v t.1 ≤ t.2
  lower : ∀ t ∈ p.lower, t.2 ≤ v t.1
  eqs : ∀ d ∈ p.eqs, lin d v = 0
  ineqs : ∀ d ∈ p.ineqs, 0 ≤ lin d v

/-- What holds of the problems built by `InflationSDP`: dictionaries have one entry per key, the moment matrix is symmetric, `Zero` and `One` have the values 0 and 1, and a
semi-known moment is proportional to an unknown one. -/
structure Prob.Ok (p : Prob K n) : Prop where
  symm : ∀ i j, p.mm i j = p.mm j i
  known : p.known.keys.Nodup
  semi : p.semi.keys.Nodup
  objective : p.objective.keys.Nodup
  upper : p.upper.keys.Nodup
  lower : p.lower.keys.Nodup
  zero : ∀ q, p.known.get 0 = some q → q = 0
  one : ∀ q, p.known.get 1 = some q → q = 1
  semi_unknown : ∀ t ∈ p.semi, 2 ≤ t.1 ∧ t.1 ∉ p.known.keys
  target_unknown : ∀ t ∈ p.semi, 2 ≤ t.2.2 ∧ t.2.2 ∉ p.known.keys ∧ t.2.2 ∉ p.semi.keys

/-- Conditions under which the export is faithful. -/
structure Prob.Exportable (tol : K) (p : Prob K n) : Prop where
  /-- no negative known value (its sign would be lost) -/
  known : ∀ t ∈ p.known, 0 ≤ t.2
  /-- no negative upper bound (it would be unreadable) -/
  upper : ∀ t ∈ p.upper, 0 ≤ t.2
  /-- bounds are zero or not tiny (tiny ones are written as zero) -/
  tinyUpper : ∀ t ∈ p.upper, t.2 = 0 ∨ tol < |t.2|
  tinyLower : ∀ t ∈ p.lower, t.2 = 0 ∨ tol < |t.2|
  /-- at most one inequality (a second one would fall outside its block) -/
  ineqs : p.ineqs.length ≤ 1
  /-- the bounds on moments with known value are satisfied -/
  boundKnown : ∀ q ∈ p.known, (∀ t ∈ p.upper, t.1 = q.1 → q.2 ≤ t.2) ∧ ∀ t ∈ p.lower, t.1 = q.1 → t.2 ≤ q.2
  /-- the bounds on `Zero` and `One` are satisfied -/
  boundOne : (∀ t ∈ p.upper, t.1 ≤ 1 → (t.1 : K) ≤ t.2) ∧ ∀ t ∈ p.lower, t.1 ≤ 1 → t.2 ≤ (t.1 : K)
  /-- the bounds on semi-known moments follow from those on the unknown moments -/
  semiUpper : ∀ s ∈ p.semi, ∀ t ∈ p.upper, t.1 ≠ s.1
  semiLower : ∀ s ∈ p.semi, ∀ t ∈ p.lower, t.1 = s.1 → t.2 ≤ 0 ∧ 0 ≤ s.2.1 ∧ ∃ u ∈ p.lower, u.1 = s.2.2 ∧ 0 ≤ u.2

/-- Printed numbers are read back, also with a minus sign in front of a non-negative number, and contain no separators. -/
structure Prints (fmt : K → Str) (num : Str → Option K) : Prop where
  read : ∀ q, num (fmt q) = some q
  readNeg : ∀ q, 0 ≤ q → num ('-' :: fmt q) = some (-q)
  one : num "1.0".toList = some 1
  negOne : num "-1.0".toList = some (-1)
  sep : ∀ q, ∀ c ∈ fmt q, c ∉ [' ', '(', ')', '{', '}', ',', '\t', '\n']
  ne_nil : ∀ q, fmt q ≠ []

end Verif.SdpWriter

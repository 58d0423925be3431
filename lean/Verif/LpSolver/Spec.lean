import Mathlib.Algebra.BigOperators.Group.Finset.Basic
import Mathlib.Algebra.BigOperators.Group.List.Basic
import Mathlib.Algebra.Order.Field.Basic
import Verif.LpSolver.Model
/-
What a MOSEK task means (MOSEK Optimizer API: linear optimization), and what the user's linear program means.
-/
namespace Verif.LpSolver

variable {K : Type} [Field K] [LinearOrder K]

/-- Meaning of a bound key with bounds `l`, `u` on a value `v`. -/
def sat (k : BoundKey) (l u v : K) : Prop :=
  match k with
  | .lo => l ≤ v
  | .up => v ≤ u
  | .fx => v = l
  | .fr => True
  | .ra => l ≤ v ∧ v ≤ u

/-- Row `i` of a sparse matrix applied to `x`. -/
def rowAt (ents : List (Nat × Nat × K)) (x : Nat → K) (i : Nat) : K :=
  ((ents.filter fun e => e.1 == i).map fun e => e.2.2 * x e.2.1).sum

/-- `x` satisfies the constraints of a task. -/
structure Task.Feasible (t : Task K) (x : Nat → K) : Prop where
  con : ∀ i, i < t.numcon → sat (t.bkc.getD i .fr) (t.blc.getD i 0) (t.buc.getD i 0) (rowAt t.ents x i)
  var : ∀ j, j < t.numvar → sat (t.bkx.getD j .fr) (t.blx.getD j 0) (t.bux.getD j 0) (x j)

/-- The objective of a task. -/
def Task.value (t : Task K) (x : Nat → K) : K := ∑ j ∈ Finset.range t.numvar, t.obj.getD j 0 * x j

/-- The arrays given to MOSEK have the lengths it requires, and all indices are in range. -/
structure Task.WellFormed (t : Task K) : Prop where
  obj : t.obj.length = t.numvar
  bkc : t.bkc.length = t.numcon
  blc : t.blc.length = t.numcon
  buc : t.buc.length = t.numcon
  bkx : t.bkx.length = t.numvar
  blx : t.blx.length = t.numvar
  bux : t.bux.length = t.numvar
  ents : ∀ e ∈ t.ents, e.1 < t.numcon ∧ e.2.1 < t.numvar

/-- A linear form (a matrix of one row) applied to `x`. -/
def linear (v : Coo K) (x : Nat → K) : K := (v.ents.map fun e => e.2.2 * x e.2.1).sum

/-- A matrix over `n` variables: no rows at all, or `n` columns. -/
structure MatrixOk (n : Nat) (A : Coo K) : Prop where
  inRange : ∀ e ∈ A.ents, e.1 < A.rows ∧ e.2.1 < n
  cols : A.rows = 0 ∨ A.cols = n
  colsLe : A.cols ≤ n

/-- A vector over `n` variables, coming from a dictionary: no column appears twice. -/
structure VectorOk (n : Nat) (v : Coo K) : Prop where
  inRange : ∀ e ∈ v.ents, e.1 = 0 ∧ e.2.1 < n
  cols : v.cols ≤ n
  colsIn : ∀ e ∈ v.ents, e.2.1 < v.cols
  nodup : (v.ents.map fun e => e.2.1).Nodup

/-- The matrices of a linear program over `n` variables. -/
structure ArgsOk (n : Nat) (a : Args K) : Prop where
  pos : 0 < n
  ineq : MatrixOk n a.ineq
  eq : MatrixOk n a.eq
  known : VectorOk n a.known
  lower : VectorOk n a.lower
  upper : VectorOk n a.upper
  objective : VectorOk n a.objective
  objCols : a.objective.cols = 0 ∨ a.objective.cols = n

/-- The causal constraints: inequalities and equalities. -/
structure Causal (a : Args K) (x : Nat → K) : Prop where
  ineq : ∀ i, i < a.ineq.rows → 0 ≤ rowAt a.ineq.ents x i
  eq : ∀ i, i < a.eq.rows → rowAt a.eq.ents x i = 0

/-- The known values. -/
def Known (a : Args K) (x : Nat → K) : Prop := ∀ e ∈ a.known.ents, x e.2.1 = e.2.2

/-- The bounds on variables given by the user. -/
structure Bounds (a : Args K) (x : Nat → K) : Prop where
  lower : ∀ e ∈ a.lower.ents, e.2.2 ≤ x e.2.1
  upper : ∀ e ∈ a.upper.ents, x e.2.1 ≤ e.2.2

/-- `default_non_negative`: variables without a lower bound of their own are non-negative. -/
def DefaultNonneg (n : Nat) (a : Args K) (x : Nat → K) : Prop :=
  ∀ j, j < n → (∀ e ∈ a.lower.ents, e.2.1 ≠ j) → 0 ≤ x j

/-- `x` solves the linear program. -/
structure Solves (n : Nat) (nonneg : Bool) (a : Args K) (x : Nat → K) : Prop where
  causal : Causal a x
  known : Known a x
  bounds : Bounds a x
  nonneg : nonneg = true → DefaultNonneg n a x

end Verif.LpSolver

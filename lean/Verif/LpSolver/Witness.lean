import Mathlib.Tactic.FieldSimp
import Mathlib.Tactic.NormNum
import Verif.LpSolver.CertProps
/-! Concrete programs: the hypotheses of the theorems can be met, and counterexamples to the claims they do not cover. -/
namespace Verif.LpSolver
open Verif.Common

/-- No entries. -/
def blank : Coo ℚ := ⟨0, 0, []⟩

/-- Solve the primal form, with default non-negativity. -/
def plain : Flags := ⟨false, true, false, false⟩
/-- Solve the dual form, with default non-negativity. -/
def dualForm : Flags := ⟨true, true, false, false⟩

/-- Two variables, `x0 - x1 ≥ 0`, `x0 = 1/2` known, maximise `x1`. -/
def exA : Args ℚ := ⟨⟨1, 2, [(0, 1, 1)]⟩, ⟨1, 2, [(0, 0, 1 / 2)]⟩, ⟨1, 2, [(0, 0, 1), (0, 1, -1)]⟩, blank, blank, blank⟩

theorem exA_ok : ArgsOk 2 exA where
  pos := by decide
  ineq := ⟨by decide +kernel, by decide +kernel, by decide +kernel⟩
  eq := ⟨by decide +kernel, by decide +kernel, by decide +kernel⟩
  known := ⟨by decide +kernel, by decide +kernel, by decide +kernel, by decide +kernel⟩
  lower := ⟨by decide +kernel, by decide +kernel, by decide +kernel, by decide +kernel⟩
  upper := ⟨by decide +kernel, by decide +kernel, by decide +kernel, by decide +kernel⟩
  objective := ⟨by decide +kernel, by decide +kernel, by decide +kernel, by decide +kernel⟩
  objCols := by decide +kernel

/-- The tasks built for `exA`. -/
example : buildTask plain exA = some ⟨true, 2, 2, [0, 1], [(0, 0, 1), (0, 1, -1), (1, 0, 1)], [.lo, .fx], [0, 1 / 2], [0, 1 / 2],
    [.lo, .lo], [0, 0], [0, 0]⟩ := by decide +kernel

/-- Hypotheses of `C29_primal_task` met, and the point `(1/2, 1/2)` solves the program. -/
example : ∃ t, buildTask plain exA = some t ∧ t.Feasible (fun _ => 1 / 2) ∧ t.value (fun _ => 1 / 2) = 1 / 2 := by
  obtain ⟨t, ht⟩ := C29_task_exists (f := plain) exA_ok (by decide +kernel) (by decide +kernel) (by decide +kernel)
  obtain ⟨_, _, h3, h4⟩ := C29_primal_task exA_ok rfl rfl rfl ht
  refine ⟨t, ht, (h3 _).2 ⟨⟨?_, ?_⟩, ?_, ⟨?_, ?_⟩, ?_⟩, ?_⟩
  · intro i hi
    have : i = 0 := by simp [exA] at hi; exact hi
    subst this; norm_num [rowAt, exA]
  · intro i hi; simp [exA, blank] at hi
  · intro e he; simp [exA] at he; rw [he]; norm_num
  · intro e he; simp [exA, blank] at he
  · intro e he; simp [exA, blank] at he
  · intro _ j hj _; norm_num
  · rw [h4]; norm_num [linear, exA]

/-- The multipliers of the dual: hypotheses of `C31_certificate_valid` and `C29_weak_duality` met by `y = (-1, 1)`. -/
example : Returned dualForm exA (fun j => ([0, 1] : List ℚ).getD j 0) [-1, 1] := by
  refine ⟨⟨false, 2, 2, [0, 1 / 2], [(0, 0, 1), (1, 0, -1), (0, 1, 1)], [.lo, .lo], [0, 1], [0, 1], [.up, .fr], [0, 0], [0, 0]⟩, ?_, ?_⟩
  · decide +kernel
  · rw [if_pos (show dualForm.dual = true from rfl)]
    refine ⟨by decide, ⟨?_, ?_⟩⟩
    · intro i hi
      have : i = 0 ∨ i = 1 := by simp at hi; omega
      rcases this with rfl | rfl <;> norm_num [sat, rowAt]
    · intro i hi
      have : i = 0 ∨ i = 1 := by simp at hi; omega
      rcases this with rfl | rfl <;> norm_num [sat]

example : NoBounds exA ∧ ObjectiveOnUnknown exA := ⟨⟨rfl, rfl⟩, by unfold ObjectiveOnUnknown; decide +kernel⟩

/-- Maximise `-x0` subject to `x0 ≥ -1` and `0 ≤ x0 + x1 `, `x1 = 0` known. -/
def exNeg : Args ℚ := ⟨⟨1, 2, [(0, 0, -1)]⟩, ⟨1, 2, [(0, 1, 1)]⟩, ⟨1, 2, [(0, 0, 1), (0, 1, 1)]⟩, blank, ⟨1, 2, [(0, 0, -1)]⟩, blank⟩

theorem exNeg_ok : ArgsOk 2 exNeg where
  pos := by decide
  ineq := ⟨by decide +kernel, by decide +kernel, by decide +kernel⟩
  eq := ⟨by decide +kernel, by decide +kernel, by decide +kernel⟩
  known := ⟨by decide +kernel, by decide +kernel, by decide +kernel, by decide +kernel⟩
  lower := ⟨by decide +kernel, by decide +kernel, by decide +kernel, by decide +kernel⟩
  upper := ⟨by decide +kernel, by decide +kernel, by decide +kernel, by decide +kernel⟩
  objective := ⟨by decide +kernel, by decide +kernel, by decide +kernel, by decide +kernel⟩
  objCols := by decide +kernel

/-- **C29, the two forms disagree.** With `default_non_negative` and a negative lower bound, the primal form allows the variable to be
negative (objective 1 is reached) while the dual form does not (the dual has a feasible point of value 0). -/
theorem C29_dual_disagrees : ∃ (a : Args ℚ) (t d : Task ℚ) (x y : Nat → ℚ), ArgsOk 2 a ∧ buildTask plain a = some t ∧
    buildTask dualForm a = some d ∧ t.Feasible x ∧ d.Feasible y ∧ t.value x = 1 ∧ d.value y = 0 := by
  refine ⟨exNeg, ⟨true, 2, 2, [-1, 0], [(0, 0, 1), (0, 1, 1), (1, 1, 1)], [.lo, .fx], [0, 1], [0, 1], [.lo, .lo], [-1, 0], [0, 0]⟩,
    ⟨false, 2, 3, [0, 1, -1], [(0, 0, 1), (1, 0, 1), (1, 1, 1), (0, 2, 1)], [.lo, .lo], [-1, 0], [-1, 0], [.up, .fr, .up],
      [0, 0, 0], [0, 0, 0]⟩,
     fun j => if j = 0 then -1 else 1, fun j => 0, exNeg_ok, ?_, ?_, ?_, ?_, ?_, ?_⟩
  · decide +kernel
  · decide +kernel
  · constructor
    · intro i hi
      have : i = 0 ∨ i = 1 := by simp at hi; omega
      rcases this with rfl | rfl <;> norm_num [sat, rowAt]
    · intro i hi
      have : i = 0 ∨ i = 1 := by simp at hi; omega
      rcases this with rfl | rfl <;> norm_num [sat]
  · constructor
    · intro i hi
      have : i = 0 ∨ i = 1 := by simp at hi; omega
      rcases this with rfl | rfl <;> norm_num [sat, rowAt]
    · intro i hi
      have : i = 0 ∨ i = 1 ∨ i = 2 := by simp at hi; omega
      rcases this with rfl | rfl | rfl <;> norm_num [sat]
  · norm_num [Task.value, Finset.sum_range_succ]
  · norm_num [Task.value, Finset.sum_range_succ]

/-- Known `x0 = -1`, constraint `x1 - x0 ≥ 0`. -/
def exRelax : Args ℚ := ⟨blank, ⟨1, 2, [(0, 0, -1)]⟩, ⟨1, 2, [(0, 0, -1), (0, 1, 1)]⟩, blank, blank, blank⟩

theorem exRelax_ok : ArgsOk 2 exRelax where
  pos := by decide
  ineq := ⟨by decide +kernel, by decide +kernel, by decide +kernel⟩
  eq := ⟨by decide +kernel, by decide +kernel, by decide +kernel⟩
  known := ⟨by decide +kernel, by decide +kernel, by decide +kernel, by decide +kernel⟩
  lower := ⟨by decide +kernel, by decide +kernel, by decide +kernel, by decide +kernel⟩
  upper := ⟨by decide +kernel, by decide +kernel, by decide +kernel, by decide +kernel⟩
  objective := ⟨by decide +kernel, by decide +kernel, by decide +kernel, by decide +kernel⟩
  objCols := by decide +kernel

/-- **C30 fails with default non-negativity** (which the relaxed problem drops): a program without solutions whose relaxation reaches a
non-negative objective. -/
theorem C30_false_with_default_nonneg : ∃ (a : Args ℚ) (f : Flags) (t : Task ℚ) (z : Nat → ℚ), ArgsOk 2 a ∧ f.nonneg = true ∧
    f.relaxIneq = true ∧ f.dual = false ∧ buildTask f a = some t ∧ (¬ ∃ x, Solves 2 f.nonneg a x) ∧ t.Feasible z ∧ 0 ≤ t.value z := by
  refine ⟨exRelax, ⟨false, true, false, true⟩, ⟨true, 2, 3, [0, 0, -1], [(0, 0, -1), (0, 1, 1), (0, 2, 1), (1, 0, 1)], [.lo, .fx], [0, -1], [0, -1], [.fr, .fr, .fr], [0, 0, 0],
      [0, 0, 0]⟩,
     fun j => if j = 0 then -1 else 0, exRelax_ok, rfl, rfl, rfl, ?_, ?_, ?_, ?_⟩
  · decide +kernel
  · rintro ⟨x, hx⟩
    have h1 := hx.known (0, 0, -1) (by simp [exRelax])
    have h2 := hx.nonneg rfl 0 (by decide) (by simp [exRelax, blank])
    simp only at h1
    rw [h1] at h2
    norm_num at h2
  · constructor
    · intro i hi
      have : i = 0 ∨ i = 1 := by simp at hi; omega
      rcases this with rfl | rfl <;> norm_num [sat, rowAt]
    · intro i hi
      have : i = 0 ∨ i = 1 ∨ i = 2 := by simp at hi; omega
      rcases this with rfl | rfl | rfl <;> norm_num [sat]
  · norm_num [Task.value, Finset.sum_range_succ]

/-- Hypotheses of `C30_relaxed_inequalities` met on a program with solutions. -/
example : ∃ t, buildTask ⟨false, false, false, true⟩ exRelax = some t ∧ (∃ x, Solves 2 false exRelax x) ∧ ∃ z, t.Feasible z ∧ 0 ≤ t.value z := by
  obtain ⟨t, ht⟩ := C29_task_exists (f := ⟨false, false, false, true⟩) exRelax_ok (by decide +kernel) (by decide +kernel) (by decide +kernel)
  have hx : ∃ x, Solves 2 false exRelax x := by
    refine ⟨fun _ => -1, ⟨⟨?_, ?_⟩, ?_, ⟨?_, ?_⟩, fun h => absurd h (by decide)⟩⟩
    · intro i hi
      have : i = 0 := by simp [exRelax] at hi; exact hi
      subst this; norm_num [rowAt, exRelax]
    · intro i hi; simp [exRelax, blank] at hi
    · intro e he; simp [exRelax] at he; rw [he]
    · intro e he; simp [exRelax, blank] at he
    · intro e he; simp [exRelax, blank] at he
  exact ⟨t, ht, hx, (C30_relaxed_inequalities exRelax_ok rfl rfl rfl ht).1 hx⟩

/-- Known `x0 = 1/2`, `x0 - x1 = 0`, upper bound `x1 ≤ 1/10`. -/
def exBound : Args ℚ := ⟨blank, ⟨1, 2, [(0, 0, 1 / 2)]⟩, blank, ⟨1, 2, [(0, 0, 1), (0, 1, -1)]⟩, blank, ⟨1, 2, [(0, 1, 1 / 10)]⟩⟩

theorem exBound_ok : ArgsOk 2 exBound where
  pos := by decide
  ineq := ⟨by decide +kernel, by decide +kernel, by decide +kernel⟩
  eq := ⟨by decide +kernel, by decide +kernel, by decide +kernel⟩
  known := ⟨by decide +kernel, by decide +kernel, by decide +kernel, by decide +kernel⟩
  lower := ⟨by decide +kernel, by decide +kernel, by decide +kernel, by decide +kernel⟩
  upper := ⟨by decide +kernel, by decide +kernel, by decide +kernel, by decide +kernel⟩
  objective := ⟨by decide +kernel, by decide +kernel, by decide +kernel, by decide +kernel⟩
  objCols := by decide +kernel

/-- **C31 fails with bounds on variables**: the certificate leaves out the contribution of the bounds, and is negative at a point which
satisfies all the constraints and bounds. -/
theorem C31_false_with_bounds : ∃ (a : Args ℚ) (p : Prep ℚ) (y : List ℚ) (x : Nat → ℚ), ArgsOk 2 a ∧ prepare dualForm a = some p ∧
    Returned dualForm a (fun j => (dense p.objective).getD j 0) y ∧ Causal a x ∧ Bounds a x ∧ (∀ j, 0 ≤ x j) ∧ certAt 2 dualForm p y x < 0 := by
  refine ⟨exBound, ⟨⟨2, 2, [(0, 0, 1), (0, 1, -1), (1, 0, 1)]⟩, [0, 1 / 2], 0, 2, 1, [0], ⟨1, 2, []⟩, blank, ⟨1, 2, [(0, 1, 1 / 10)]⟩⟩, [1, -1, -1],
    fun _ => 1 / 20, exBound_ok, ?_, ?_, ⟨?_, ?_⟩, ⟨?_, ?_⟩, ?_, ?_⟩
  · decide +kernel
  · refine ⟨⟨false, 2, 3, [0, 1 / 2, -(1 / 10)], [(0, 0, 1), (1, 0, -1), (0, 1, 1), (1, 2, -1)], [.lo, .lo], [0, 0], [0, 0], [.fr, .fr, .up],
      [0, 0, 0], [0, 0, 0]⟩, ?_, ?_⟩
    · decide +kernel
    · rw [if_pos (show dualForm.dual = true from rfl)]
      refine ⟨by decide, ⟨?_, ?_⟩⟩
      · intro i hi
        have : i = 0 ∨ i = 1 := by simp at hi; omega
        rcases this with rfl | rfl <;> norm_num [sat, rowAt]
      · intro i hi
        have : i = 0 ∨ i = 1 ∨ i = 2 := by simp at hi; omega
        rcases this with rfl | rfl | rfl <;> norm_num [sat]
  · intro i hi; simp [exBound, blank] at hi
  · intro i hi
    have : i = 0 := by simp [exBound] at hi; exact hi
    subst this; norm_num [rowAt, exBound]
  · intro e he; simp [exBound, blank] at he
  · intro e he; simp [exBound] at he; rw [he]; norm_num
  · intro j; norm_num
  · norm_num [certAt, Finset.sum_range_succ, certData, dualForm, dense]

/-- Known `x0 = 1/2`, `x0 - x1 = 0`, maximise `-x0`. -/
def exKnownObj : Args ℚ := ⟨⟨1, 2, [(0, 0, -1)]⟩, ⟨1, 2, [(0, 0, 1 / 2)]⟩, blank, ⟨1, 2, [(0, 0, 1), (0, 1, -1)]⟩, blank, blank⟩

theorem exKnownObj_ok : ArgsOk 2 exKnownObj where
  pos := by decide
  ineq := ⟨by decide +kernel, by decide +kernel, by decide +kernel⟩
  eq := ⟨by decide +kernel, by decide +kernel, by decide +kernel⟩
  known := ⟨by decide +kernel, by decide +kernel, by decide +kernel, by decide +kernel⟩
  lower := ⟨by decide +kernel, by decide +kernel, by decide +kernel, by decide +kernel⟩
  upper := ⟨by decide +kernel, by decide +kernel, by decide +kernel, by decide +kernel⟩
  objective := ⟨by decide +kernel, by decide +kernel, by decide +kernel, by decide +kernel⟩
  objCols := by decide +kernel

/-- **C31 fails for objectives with terms on known variables**: those terms are left out of the certificate, which is negative at a
point that solves the whole program. -/
theorem C31_false_with_known_objective : ∃ (a : Args ℚ) (p : Prep ℚ) (y : List ℚ) (x : Nat → ℚ), ArgsOk 2 a ∧ NoBounds a ∧
    prepare dualForm a = some p ∧ Returned dualForm a (fun j => (dense p.objective).getD j 0) y ∧ Solves 2 true a x ∧
    certAt 2 dualForm p y x < 0 := by
  refine ⟨exKnownObj, ⟨⟨2, 2, [(0, 0, 1), (0, 1, -1), (1, 0, 1)]⟩, [0, 1 / 2], 0, 2, 1, [0], ⟨1, 2, [(0, 0, -1)]⟩, blank, blank⟩, [0, -1],
    fun _ => 1 / 2, exKnownObj_ok, ⟨rfl, rfl⟩, ?_, ?_, ⟨⟨?_, ?_⟩, ?_, ⟨?_, ?_⟩, ?_⟩, ?_⟩
  · decide +kernel
  · refine ⟨⟨false, 2, 2, [0, 1 / 2], [(0, 0, 1), (1, 0, -1), (0, 1, 1)], [.lo, .lo], [-1, 0], [-1, 0], [.fr, .fr], [0, 0], [0, 0]⟩, ?_, ?_⟩
    · decide +kernel
    · rw [if_pos (show dualForm.dual = true from rfl)]
      refine ⟨by decide, ⟨?_, ?_⟩⟩
      · intro i hi
        have : i = 0 ∨ i = 1 := by simp at hi; omega
        rcases this with rfl | rfl <;> norm_num [sat, rowAt]
      · intro i hi
        have : i = 0 ∨ i = 1 := by simp at hi; omega
        rcases this with rfl | rfl <;> norm_num [sat]
  · intro i hi; simp [exKnownObj, blank] at hi
  · intro i hi
    have : i = 0 := by simp [exKnownObj] at hi; exact hi
    subst this; norm_num [rowAt, exKnownObj]
  · intro e he; simp [exKnownObj] at he; rw [he]; norm_num
  · intro e he; simp [exKnownObj, blank] at he
  · intro e he; simp [exKnownObj, blank] at he
  · intro _ j _ _; norm_num
  · norm_num [certAt, Finset.sum_range_succ, certData, dualForm, dense]

/-- Known `x0 = 1/2`, `-x0 ≥ 0`, maximise `x1`. -/
def exRay : Args ℚ := ⟨⟨1, 2, [(0, 1, 1)]⟩, ⟨1, 2, [(0, 0, 1 / 2)]⟩, ⟨1, 2, [(0, 0, -1)]⟩, blank, blank, blank⟩

theorem exRay_ok : ArgsOk 2 exRay where
  pos := by decide
  ineq := ⟨by decide +kernel, by decide +kernel, by decide +kernel⟩
  eq := ⟨by decide +kernel, by decide +kernel, by decide +kernel⟩
  known := ⟨by decide +kernel, by decide +kernel, by decide +kernel, by decide +kernel⟩
  lower := ⟨by decide +kernel, by decide +kernel, by decide +kernel, by decide +kernel⟩
  upper := ⟨by decide +kernel, by decide +kernel, by decide +kernel, by decide +kernel⟩
  objective := ⟨by decide +kernel, by decide +kernel, by decide +kernel, by decide +kernel⟩
  objCols := by decide +kernel

/-- **C31 fails for infeasible problems with an objective**: the multipliers certifying infeasibility (for which the objective counts
as zero) have the objective subtracted, and the result is negative at a point compatible with the causal constraints. -/
theorem C31_false_for_infeasible_with_objective : ∃ (a : Args ℚ) (p : Prep ℚ) (y : List ℚ) (x : Nat → ℚ), ArgsOk 2 a ∧ NoBounds a ∧
    ObjectiveOnUnknown a ∧ prepare plain a = some p ∧ Returned plain a (fun _ => 0) y ∧ Causal a x ∧ (∀ j, 0 ≤ x j) ∧
    certAt 2 plain p y x < 0 := by
  refine ⟨exRay, ⟨⟨2, 2, [(0, 0, -1), (1, 0, 1)]⟩, [0, 1 / 2], 1, 1, 1, [0], ⟨1, 2, [(0, 1, 1)]⟩, blank, blank⟩, [-1, -1],
    fun j => if j = 1 then 1 else 0, exRay_ok, ⟨rfl, rfl⟩, ?_, ?_, ?_, ⟨?_, ?_⟩, ?_, ?_⟩
  · unfold ObjectiveOnUnknown; decide +kernel
  · decide +kernel
  · refine ⟨⟨true, 2, 2, [0, 1], [(0, 0, -1), (1, 0, 1)], [.lo, .fx], [0, 1 / 2], [0, 1 / 2], [.lo, .lo], [0, 0], [0, 0]⟩, ?_, ?_⟩
    · decide +kernel
    · rw [if_neg (by decide)]
      refine ⟨by decide, ⟨?_, ?_⟩⟩
      · intro i hi
        have : i = 0 ∨ i = 1 := by simp at hi; omega
        rcases this with rfl | rfl <;> norm_num <;> decide
      · intro i hi
        have : i = 0 ∨ i = 1 := by simp at hi; omega
        rcases this with rfl | rfl <;> norm_num [rowAt, transp]
  · intro i hi
    have : i = 0 := by simp [exRay] at hi; exact hi
    subst this; norm_num [rowAt, exRay]
  · intro i hi; simp [exRay, blank] at hi
  · intro j; simp only; split <;> norm_num
  · norm_num [certAt, Finset.sum_range_succ, certData, plain, dense]

end Verif.LpSolver

import Verif.Normalization.Props
import Mathlib.Algebra.Star.Prod
import Mathlib.Data.Real.Star
import Mathlib.Tactic.IntervalCases
import Mathlib.Tactic.NormNum
import Mathlib.Tactic.Ring
/-
Concrete cases for C41.
-/
namespace Verif.Normalization
open Verif.State Verif.Common Verif.Scenario Verif.Canon Verif.Canon.Spec Verif.Positivity Verif.Symmetry Verif.SymMM

/-- One measurement with outcomes `1`, `2` in the ring `ℝ × ℝ` of functions on two points. -/
def coin : Nat → ℝ × ℝ
  | 1 => (1, 0)
  | 2 => (0, 1)
  | _ => 0

/-- The uniform distribution on two points. -/
noncomputable def uniform : ℝ × ℝ →+ ℝ where
  toFun x := (x.1 + x.2) / 2
  map_zero' := by simp
  map_add' x y := by simp only [Prod.fst_add, Prod.snd_add]; ring

noncomputable def coinVal : Nat → ℝ
  | 1 => 1
  | 2 => 1 / 2
  | _ => 0

/-- **C41, coinciding summands.** When a symmetry exchanges the outcomes, the moments of both outcomes are the same variable (here 2), and the constraint built from `1 = ⟨A₀⟩ + ⟨A₁⟩` says `1 = ⟨A₀⟩`: it excludes the uniformly distributed outcome, which is a model of the symmetrized matrix. -/
theorem C41_equal_summands_wrong :
    discover [false, false, true] (orthoDict [[1, 2]]) [[], [1], [2]] = some [(0, [1, 2])] ∧
    construct [(0, [1, 2])] [[1, 2, 2], [2, 2, 0], [2, 0, 2]] = [(1, [2, 2])] ∧
    momentEquality (1, [2, 2]) = some [(1, 1), (2, -1)] ∧
    Complete [[1, 2]] coin ∧ Represents [[1, 2, 2], [2, 2, 0], [2, 0, 2]] [[], [1], [2]] coin uniform coinVal ∧
    coinVal 1 = ([2, 2].map coinVal).sum ∧ form [(1, 1), (2, -1)] coinVal ≠ 0 := by
  refine ⟨by decide, by decide, by decide, ?_, ⟨rfl, ?_⟩, ?_, ?_⟩
  · intro g hg
    rw [List.mem_singleton] at hg
    subst hg
    ext <;> simp [coin]
  · intro i j hi hj
    have hi : i < 3 := hi
    have hj : j < 3 := hj
    have key : ∀ x : ℝ × ℝ, uniform x = (x.1 + x.2) / 2 := fun x => rfl
    rw [key]
    interval_cases i <;> interval_cases j <;> simp [op, coin, coinVal] 
  · norm_num [coinVal]
  · norm_num [form, coinVal]

/-- Two parties sharing one source, two outcomes each. -/
def pairScenario : Scenario := ⟨2, 1, fun _ => 2, fun _ => 1, fun _ _ => true, fun _ => 1⟩

/-- Everyone answers 0. -/
noncomputable def always0 : Nat → ℝ
  | 1 => 1
  | 3 => 1
  | _ => 0

/-- The hypotheses of `C41_every_problem` are met by the pair scenario with the generating monomials `1, A₀, A₁`, and the equality `1 = A₀ + A₁` is found. -/
example (D : DagInput) :
    ColsOk (pairScenario.lexorder.length + 1) (padMat (pairScenario.notcomm D.tbl true)) pairScenario.orthomat false [[], [1], [2]] ∧
    Model (pairScenario.lexorder.length + 1) (padMat (pairScenario.notcomm D.tbl true)) pairScenario.orthomat always0 ∧
    Complete (scenarioGroups pairScenario) always0 ∧ (∀ x, AddMonoidHom.id ℝ (star x) = AddMonoidHom.id ℝ x) ∧
    (∀ r ∈ sdpSymmetries pairScenario, ∀ w, (∀ x ∈ w, x < pairScenario.lexorder.length + 1) → op always0 (w.map (img r)) = op always0 w) ∧
    discover (lastOutcomeMask pairScenario.lexorder (fun _ => true) fun _ => 3) (orthoDict (scenarioGroups pairScenario)) [[], [1], [2]]
      = some [(0, [1, 2])] := by
  have hlen : pairScenario.lexorder.length = 4 := by decide
  refine ⟨⟨by decide, by decide, ?_, by simp⟩, ⟨?_, rfl, ?_, ?_⟩, ?_, ?_, ?_, by decide⟩
  · intro m hm
    simp only [List.mem_cons, List.not_mem_nil, or_false] at hm
    rcases hm with rfl | rfl | rfl <;> simp [toCanonical]
  · intro a
    refine ⟨?_, by simp⟩
    unfold always0
    split <;> simp
  · intro a b _ _ _
    exact mul_comm _ _
  · intro a b ha hb h
    rw [hlen] at ha hb
    have : ∀ a b : Fin 5, pairScenario.orthomat a b = true → (a.1 ≠ 1 ∧ a.1 ≠ 3) ∨ (b.1 ≠ 1 ∧ b.1 ≠ 3) := by decide
    rcases this ⟨a, ha⟩ ⟨b, hb⟩ h with h | h
    · have : always0 a = 0 := by unfold always0; split <;> simp_all
      rw [this, zero_mul]
    · have : always0 b = 0 := by unfold always0; split <;> simp_all
      rw [this, mul_zero]
  · intro g hg
    have : scenarioGroups pairScenario = [[1, 2], [3, 4]] := by decide
    rw [this] at hg
    simp only [List.mem_cons, List.not_mem_nil, or_false] at hg
    rcases hg with rfl | rfl <;> simp [always0]
  · intro x; simp
  · intro r hr w hw
    have : sdpSymmetries pairScenario = [[0, 1, 2, 3, 4]] := by decide
    rw [this, List.mem_singleton] at hr
    subst hr
    rw [hlen] at hw
    congr 1
    conv_rhs => rw [← List.map_id w]
    apply List.map_congr_left
    intro x hx
    have hx := hw x hx
    interval_cases x <;> rfl

end Verif.Normalization

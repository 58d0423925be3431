import Verif.Hierarchy.Props
import Mathlib.Algebra.BigOperators.Ring.Finset
/-!
The marginals of a mixture of distributions, and the semidefinite program at a mixture of assignments.
-/
namespace Verif.Mixture
open Verif.Common Verif.Canon Verif.Scenario Verif.Moment Verif.SdpEnd Verif.SdpNames Verif.Hierarchy
open Verif.State (Dict Mon mem_keys)
open Verif.SdpState (Call Args SolverOut valuesOf)
open Verif.EndToEnd (Input)

variable {ι : Type} {s : Finset ι} {q : ι → Rat} {P : ι → List Nat → Rat}

/-- The mixture of distributions with weights `q`. -/
def mix (s : Finset ι) (q : ι → Rat) (P : ι → List Nat → Rat) : List Nat → Rat := fun t => ∑ k ∈ s, q k * P k t

theorem sumAxes_mix (axes : List (Nat × Bool)) (P : ι → List Nat → Rat) (idx : List Nat) :
    Marginal.sumAxes axes (mix s q P) idx = ∑ k ∈ s, q k * Marginal.sumAxes axes (P k) idx := by
  induction axes generalizing P idx with
  | nil => rfl
  | cons t axes ih =>
    obtain ⟨d, b⟩ := t
    cases b
    · cases idx with
      | nil => simp [Marginal.sumAxes]
      | cons i idx => exact ih (fun k t => P k (i :: t)) idx
    · show ((List.range d).map fun i => Marginal.sumAxes axes (fun t => mix s q P (i :: t)) idx).sum = _
      have h : ∀ i, Marginal.sumAxes axes (fun t => mix s q P (i :: t)) idx = ∑ k ∈ s, q k * Marginal.sumAxes axes (fun t => P k (i :: t)) idx := fun i => ih (fun k t => P k (i :: t)) idx
      simp only [h]
      show _ = ∑ k ∈ s, q k * ((List.range d).map fun i => Marginal.sumAxes axes (fun t => P k (i :: t)) idx).sum
      induction List.range d with
      | nil => simp
      | cons i l ih => simp only [List.map_cons, List.sum_cons, ih, mul_add, Finset.sum_add_distrib]

/-- The marginal of an atom is linear in the distribution. -/
theorem atomMarginal_mix {I : Input} (hq : ∑ k ∈ s, q k = 1) {a : Atom} {x : Rat} (h : atomMarginal I (mix s q P) a = some x) :
    ∃ y : ι → Rat, (∀ k, atomMarginal I (P k) a = some (y k)) ∧ x = ∑ k ∈ s, q k * y k := by
  unfold atomMarginal at h ⊢
  split at h
  · rename_i hz
    refine ⟨fun _ => 0, fun k => by rw [if_pos hz], ?_⟩
    rw [← Option.some.inj h]
    simp
  · rename_i hz
    obtain ⟨rows, hr, rfl⟩ := Option.map_eq_some_iff.1 h
    refine ⟨fun k => Marginal.computeMarginal I.outcomes I.priv (P k) rows, fun k => by rw [if_neg hz, hr]; rfl, ?_⟩
    unfold Marginal.computeMarginal
    split
    · simp [hq]
    · exact sumAxes_mix _ P _

/-- The marginal of a moment of at most one atom is linear in the distribution. -/
theorem momentMarginal_mix {I : Input} (hq : ∑ k ∈ s, q k = 1) {m : Mon} (hm : m.length ≤ 1) {x : Rat} (h : momentMarginal I (mix s q P) m = some x) :
    ∃ y : ι → Rat, (∀ k, momentMarginal I (P k) m = some (y k)) ∧ x = ∑ k ∈ s, q k * y k := by
  rcases m with _ | ⟨a, _ | ⟨b, m⟩⟩
  · refine ⟨fun _ => 1, fun k => rfl, ?_⟩
    rw [marginal_one] at h
    rw [← Option.some.inj h]
    simp [hq]
  · have e : ∀ P : List Nat → Rat, momentMarginal I P [a] = atomMarginal I P a := by
      intro P
      unfold momentMarginal
      rw [List.mapM_cons, List.mapM_nil]
      rcases atomMarginal I P a with _ | y
      · rfl
      · show some (List.prod [y]) = some y
        simp
    rw [e] at h
    obtain ⟨y, h1, h2⟩ := atomMarginal_mix hq h
    exact ⟨y, fun k => by rw [e, h1], h2⟩
  · simp at hm

variable {v : ι → Option Mon → ℝ}

/-- The mixture of assignments with weights `q`. -/
def mixed (s : Finset ι) (q : ι → Rat) (v : ι → Option Mon → ℝ) : Option Mon → ℝ := fun y => ∑ k ∈ s, ((q k : Rat) : ℝ) * v k y

theorem sum_mixed {β : Type} (l : List β) (c : β → ℝ) (key : β → Option Mon) : (l.map fun t => c t * mixed s q v (key t)).sum = ∑ k ∈ s, ((q k : Rat) : ℝ) * (l.map fun t => c t * v k (key t)).sum := by
  induction l with
  | nil => simp
  | cons t l ih =>
    simp only [List.map_cons, List.sum_cons, ih, mul_add, Finset.sum_add_distrib]
    congr 1
    unfold mixed
    rw [Finset.mul_sum]
    exact Finset.sum_congr rfl fun k _ => by ring

theorem lin_mixed (d : Dict (Option Mon) ℝ) : SdpSolver.lin d (mixed s q v) = ∑ k ∈ s, ((q k : Rat) : ℝ) * SdpSolver.lin d (v k) := sum_mixed d (fun t => t.2) fun t => t.1

theorem matrix_mixed {n : Nat} (inp : SdpSolver.Input (Option Mon) ℝ n) (i j : Fin n) : inp.momentMatrix (mixed s q v) i j = ∑ k ∈ s, ((q k : Rat) : ℝ) * inp.momentMatrix (v k) i j :=
  sum_mixed inp.masks (fun t => t.2 i j) fun t => t.1

/-- A sum of positive semidefinite matrices with non-negative weights is positive semidefinite. -/
theorem psd_sum {n : Nat} {M : ι → SdpSolver.Mat n ℝ} {w : ι → ℝ} (hw : ∀ k ∈ s, 0 ≤ w k) (hM : ∀ k ∈ s, SdpSolver.PSD (M k)) : SdpSolver.PSD fun i j => ∑ k ∈ s, w k * M k i j where
  symm := fun i j => Finset.sum_congr rfl fun k hk => by rw [(hM k hk).symm i j]
  nonneg := by
    intro x
    have : SdpSolver.quad (fun i j => ∑ k ∈ s, w k * M k i j) x = ∑ k ∈ s, w k * SdpSolver.quad (M k) x := by
      unfold SdpSolver.quad
      simp only [Finset.mul_sum, Finset.sum_mul]
      conv_rhs => rw [Finset.sum_comm]
      refine Finset.sum_congr rfl fun i _ => ?_
      conv_rhs => rw [Finset.sum_comm]
      exact Finset.sum_congr rfl fun j _ => Finset.sum_congr rfl fun k _ => by ring
    rw [this]
    exact Finset.sum_nonneg fun k hk => mul_nonneg (hw k hk) ((hM k hk).nonneg x)

end Verif.Mixture

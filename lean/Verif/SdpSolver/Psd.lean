import Mathlib.Algebra.Order.Field.Basic
import Mathlib.Algebra.BigOperators.Fin
import Mathlib.Algebra.BigOperators.Field
import Mathlib.Algebra.Order.BigOperators.Group.Finset
import Mathlib.Tactic.Ring
import Mathlib.Tactic.Linarith
import Mathlib.Tactic.FieldSimp
/-
Positive semidefinite matrices over an ordered field, and the self-duality of their cone.
-/
namespace Verif.SdpSolver

/-- Square matrices of size `n`. -/
abbrev Mat (n : Nat) (K : Type) := Fin n → Fin n → K

variable {K : Type} [Field K] [LinearOrder K]

/-- The quadratic form of a matrix. -/
def quad {n : Nat} (M : Mat n K) (v : Fin n → K) : K := ∑ i, ∑ j, v i * M i j * v j

/-- Symmetric with non-negative quadratic form. -/
structure PSD {n : Nat} (M : Mat n K) : Prop where
  symm : ∀ i j, M i j = M j i
  nonneg : ∀ v : Fin n → K, 0 ≤ quad M v

/-- The entrywise inner product, `Expr.dot` of two matrices. -/
def inner {n : Nat} (Z F : Mat n K) : K := ∑ i, ∑ j, Z i j * F i j

variable [IsStrictOrderedRing K]

/-- The matrix without its first row and column. -/
def tail {n : Nat} (M : Mat (n + 1) K) : Mat n K := fun i j => M i.succ j.succ

omit [LinearOrder K] [IsStrictOrderedRing K] in
theorem quad_succ {n : Nat} (M : Mat (n + 1) K) (hs : ∀ i j, M i j = M j i) (a : K) (v : Fin n → K) :
    quad M (Fin.cons a v) = a * a * M 0 0 + 2 * a * (∑ j, M 0 j.succ * v j) + quad (tail M) v := by
  unfold quad
  rw [Fin.sum_univ_succ]
  simp only [Fin.cons_zero, Fin.cons_succ, Fin.sum_univ_succ (n := n), Finset.sum_add_distrib, tail]
  have h1 : ∑ i : Fin n, a * M 0 i.succ * v i = a * ∑ j, M 0 j.succ * v j := by
    rw [Finset.mul_sum]; exact Finset.sum_congr rfl fun i _ => by ring
  have h2 : ∑ i : Fin n, v i * M i.succ 0 * a = a * ∑ j, M 0 j.succ * v j := by
    rw [Finset.mul_sum]; exact Finset.sum_congr rfl fun i _ => by rw [hs i.succ 0]; ring
  rw [h1, h2]
  ring

theorem tail_psd {n : Nat} {M : Mat (n + 1) K} (h : PSD M) : PSD (tail M) := by
  refine ⟨fun i j => h.symm _ _, fun v => ?_⟩
  have := h.nonneg (Fin.cons 0 v)
  rw [quad_succ M h.symm] at this
  simpa using this

theorem diag_nonneg {n : Nat} {M : Mat (n + 1) K} (h : PSD M) : 0 ≤ M 0 0 := by
  have := h.nonneg (Fin.cons 1 fun _ => 0)
  rw [quad_succ M h.symm] at this
  simpa [quad] using this

/-- If a diagonal entry vanishes, so does its row. -/
theorem row_zero {n : Nat} {M : Mat (n + 1) K} (h : PSD M) (h0 : M 0 0 = 0) (j : Fin n) : M 0 j.succ = 0 := by
  by_contra hne
  set b := M 0 j.succ
  set q := quad (tail M) (Pi.single j 1)
  have hq : ∀ a : K, 0 ≤ 2 * a * b + q := by
    intro a
    have := h.nonneg (Fin.cons a (Pi.single j 1))
    rw [quad_succ M h.symm, h0] at this
    have e : (∑ k, M 0 k.succ * (Pi.single j 1 : Fin n → K) k) = b := by
      simp [Pi.single_apply, b]
    rw [e] at this
    simpa using this
  have := hq (-(q + 1) / (2 * b))
  have e : 2 * (-(q + 1) / (2 * b)) * b = -(q + 1) := by field_simp
  rw [e] at this
  linarith

/-- The Schur complement. -/
def schur {n : Nat} (M : Mat (n + 1) K) : Mat n K := fun i j => M i.succ j.succ - M 0 i.succ * M 0 j.succ / M 0 0

theorem schur_psd {n : Nat} {M : Mat (n + 1) K} (h : PSD M) (h0 : M 0 0 ≠ 0) : PSD (schur M) := by
  refine ⟨fun i j => ?_, fun v => ?_⟩
  · unfold schur; rw [h.symm i.succ j.succ]; ring
  · set s := ∑ j, M 0 j.succ * v j with hs
    have key := h.nonneg (Fin.cons (-s / M 0 0) v)
    rw [quad_succ M h.symm] at key
    have e : quad (schur M) v = quad (tail M) v - s * s / M 0 0 := by
      unfold quad schur tail
      have : s * s / M 0 0 = ∑ i, ∑ j, v i * (M 0 i.succ * M 0 j.succ / M 0 0) * v j := by
        rw [hs, Finset.sum_mul_sum, Finset.sum_div]
        refine Finset.sum_congr rfl fun i _ => ?_
        rw [Finset.sum_div]
        exact Finset.sum_congr rfl fun j _ => by ring
      rw [this, ← Finset.sum_sub_distrib]
      refine Finset.sum_congr rfl fun i _ => ?_
      rw [← Finset.sum_sub_distrib]
      exact Finset.sum_congr rfl fun j _ => by ring
    rw [e]
    rw [← hs] at key
    have e2 : -s / M 0 0 * (-s / M 0 0) * M 0 0 + 2 * (-s / M 0 0) * s = - (s * s / M 0 0) := by field_simp; ring
    linarith

/-- **Self-duality.** The inner product of positive semidefinite matrices is non-negative. -/
theorem inner_nonneg : ∀ {n : Nat} {Z G : Mat n K}, PSD Z → PSD G → 0 ≤ inner Z G
  | 0, Z, G, _, _ => by simp [inner]
  | n + 1, Z, G, hZ, hG => by
    have hexp : inner Z G = Z 0 0 * G 0 0 + 2 * (∑ j : Fin n, Z 0 j.succ * G 0 j.succ) + inner (tail Z) (tail G) := by
      unfold inner tail
      rw [Fin.sum_univ_succ]
      simp only [Fin.sum_univ_succ (n := n), Finset.sum_add_distrib]
      have : ∑ i : Fin n, Z i.succ 0 * G i.succ 0 = ∑ j : Fin n, Z 0 j.succ * G 0 j.succ :=
        Finset.sum_congr rfl fun i _ => by rw [hZ.symm i.succ 0, hG.symm i.succ 0]
      rw [this]; ring
    by_cases h0 : Z 0 0 = 0
    · have : ∑ j : Fin n, Z 0 j.succ * G 0 j.succ = 0 := Finset.sum_eq_zero fun j _ => by rw [row_zero hZ h0 j, zero_mul]
      rw [hexp, h0, this]
      have := inner_nonneg (tail_psd hZ) (tail_psd hG)
      linarith
    · have ih := inner_nonneg (schur_psd hZ h0) (tail_psd hG)
      have hpos : 0 < Z 0 0 := lt_of_le_of_ne (diag_nonneg hZ) (Ne.symm h0)
      have hq := hG.nonneg (Fin.cons (Z 0 0) fun j => Z 0 j.succ)
      rw [quad_succ G hG.symm] at hq
      have e : inner (schur Z) (tail G) = inner (tail Z) (tail G) - quad (tail G) (fun j => Z 0 j.succ) / Z 0 0 := by
        unfold inner quad schur tail
        rw [Finset.sum_div, ← Finset.sum_sub_distrib]
        refine Finset.sum_congr rfl fun i _ => ?_
        rw [Finset.sum_div, ← Finset.sum_sub_distrib]
        exact Finset.sum_congr rfl fun j _ => by ring
      have e2 : ∑ j : Fin n, G 0 j.succ * Z 0 j.succ = ∑ j : Fin n, Z 0 j.succ * G 0 j.succ := Finset.sum_congr rfl fun j _ => mul_comm _ _
      rw [e2] at hq
      set s := ∑ j : Fin n, Z 0 j.succ * G 0 j.succ
      set q := quad (tail G) fun j => Z 0 j.succ
      have h3 : 0 ≤ (Z 0 0 * Z 0 0 * G 0 0 + 2 * Z 0 0 * s + q) / Z 0 0 := div_nonneg hq hpos.le
      have h4 : (Z 0 0 * Z 0 0 * G 0 0 + 2 * Z 0 0 * s + q) / Z 0 0 = Z 0 0 * G 0 0 + 2 * s + q / Z 0 0 := by field_simp
      rw [hexp]
      linarith

end Verif.SdpSolver

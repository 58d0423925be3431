import Verif.Optimize.Bisect
import Mathlib.Algebra.Order.Ring.Rat

/-! # Concrete bisections -/

namespace Verif.Optimize

/-- critical value `1/3`, with a certificate at every value -/
def thirdOracle : Oracle ℚ (String × ℚ) where
  objective v := 1 / 3 - v
  certificate v := [("1", v)]

/-- the hypotheses of `C37_converges`, `C37_within_tolerance` and `C37_never_below` are met -/
example : ∃ x, maximizeViaBisect thirdOracle 0 1 (1 / 10000) (1 / 10000) 0 100 false = .value x ∧
    |x - (1 / 3 + 1 / 10000 / 2048)| ≤ 1 / 10000 + 0 * |x| ∧ 1 / 3 - (1 / 10000 + 0 * |x|) < x := by
  obtain ⟨x, hx⟩ := C37_converges (O := thirdOracle) (b0 := 0) (b1 := 1) (precision := 1 / 10000) (xtol := 1 / 10000)
    (rtol := 0) (maxiter := 100) (by norm_num) (by norm_num) le_rfl (by norm_num) (by norm_num)
    (by norm_num [thirdOracle]) (by norm_num [thirdOracle])
  refine ⟨x, hx, ?_, ?_⟩
  · apply C37_within_tolerance (O := thirdOracle) (b0 := 0) (b1 := 1) (precision := 1 / 10000) (maxiter := 100) (ret := false)
      (by norm_num) (by norm_num) (by norm_num) le_rfl
    · intro v _ hv; simp only [thirdOracle]; linarith
    · intro v _ hv; simp only [thirdOracle]; linarith
    · rw [hx]; rfl
  · apply C37_never_below (O := thirdOracle) (b0 := 0) (b1 := 1) (precision := 1 / 10000) (maxiter := 100) (ret := false)
      (by norm_num) (by norm_num) (by norm_num) le_rfl
    · intro u _ hu; simp only [thirdOracle]; linarith
    · rw [hx]; rfl

/-- the hypotheses of `C37_certificate_at_value` are met -/
example : ∃ x cert, maximizeViaBisect thirdOracle 0 1 (1 / 100) (1 / 100) 0 100 true = .withCertificate x cert ∧
    thirdOracle.certificate x ≠ [] ∧ cert = [("1", x)] := by
  refine ⟨43 / 128, [("1", 43 / 128)], ?_, by simp [thirdOracle], rfl⟩
  have h : (maximizeViaBisect thirdOracle 0 1 (1 / 100) (1 / 100) 0 100 true).crit = some (43 / 128) := by decide +kernel
  cases hr : maximizeViaBisect thirdOracle 0 1 (1 / 100) (1 / 100) 0 100 true with
  | raised => rw [hr] at h; cases h
  | value x =>
    obtain ⟨-, -, y, st', -, hor⟩ := run_inv hr (by simp)
    rcases hor with ⟨e, -⟩ | ⟨-, t, -, e⟩
    · cases e
    · cases e
  | withCertificate x cert =>
    rw [hr] at h
    obtain rfl : x = 43 / 128 := Option.some.inj h
    have := C37_certificate_at_value (by norm_num) (by norm_num) (by simp [thirdOracle]) hr
    rw [this]
    rfl

/-- A program whose objective decreases slowly beyond the critical value `1/2`. -/
def slowOracle : Oracle ℚ (String × ℚ) where
  objective v := (1 / 2 - v) / 4000000
  certificate _ := []

/-- **C37, the requested precision is not always met.**  The search looks for the level `-precision/2048`,
not for zero.  Here the program is feasible exactly for parameters up to `1/2`, the precision is `1e-4`,
no check fails, and the value returned is larger than `0.69`. -/
theorem C37_tolerance_dominates :
    (∀ v : ℚ, 0 ≤ slowOracle.objective v ↔ v ≤ 1 / 2) ∧
      ∃ x, (maximizeViaBisect slowOracle 0 1 (1 / 10000) (1 / 10000) 0 100 false).crit = some x ∧ 69 / 100 < x := by
  refine ⟨fun v => ?_, ?_⟩
  · simp only [slowOracle]
    constructor
    · intro h
      by_contra hc
      have : (1 / 2 - v) / 4000000 < 0 := div_neg_of_neg_of_pos (by linarith) (by norm_num)
      linarith
    · intro h
      exact div_nonneg (by linarith) (by norm_num)
  · refine ⟨(maximizeViaBisect slowOracle 0 1 (1 / 10000) (1 / 10000) 0 100 false).crit.get (by decide +kernel), by simp, ?_⟩
    decide +kernel

/-- A program that is infeasible at the lower end by less than the tolerance of the assertion. -/
def gapOracle : Oracle ℚ (String × ℚ) where
  objective v := -(3 / 2) * (1 / 10000 / 2048) - v
  certificate _ := []

/-- **C37.**  Both assertions on the end points pass, yet the search raises an error: the assertion at the lower
end tolerates twice the shift of the function, so the two ends may have the same sign. -/
theorem C37_assertions_do_not_suffice :
    gapOracle.objective 1 + 1 / 10000 / 2048 + 1 / 10000 / 2048 < 0 ∧ 0 < gapOracle.objective 0 + 1 / 10000 / 2048 + 1 / 10000 / 2048 ∧
      (maximizeViaBisect gapOracle 0 1 (1 / 10000) (1 / 10000) 0 100 false).crit = none := by
  refine ⟨by norm_num [gapOracle], by norm_num [gapOracle], by decide +kernel⟩

end Verif.Optimize

import Verif.Optimize.Dual
import Mathlib.Algebra.Order.Ring.Rat

/-! # Concrete maximisations with certificates -/

namespace Verif.Optimize

/-- the parameter itself, its square, and the constant one -/
def exSymbolic (n : String) : Option (ℚ → ℚ) :=
  if n = "1" then some fun _ => 1 else if n = "p" then some fun p => p else if n = "pp" then some fun p => p * p else none

/-- the certificate `1/3 - p` at every parameter -/
def exCert (_ : ℚ) : List (String × ℚ) := [("1", 1 / 3), ("p", -1)]

theorem exCert_fun {v : ℚ} {g : ℚ → ℚ} (h : certFunction exSymbolic (exCert v) = some g) (p : ℚ) : g p = 1 / 3 - p := by
  rw [certFunction_eq _ _ h]
  simp [exCert, exSymbolic]
  ring

/-- the hypotheses of `C38_safe_global`, `C38_safe_local`, `C38_bounds_decrease` are met, with result `1/3` -/
example : maximizeViaDual exSymbolic exCert (fun g => g 0) 1 (1 / 100) 10 = some (some (1 / 3, [(1, 1 / 3), (1 / 3 + 1 / 100, 1 / 3)])) ∧
    Sound exSymbolic exCert (fun p => p ≤ 1 / 3) 0 1 ∧
    (∀ v g, certFunction exSymbolic (exCert v) = some g → IsGlobalMax 0 1 g (g 0)) ∧
    (∀ v g, certFunction exSymbolic (exCert v) = some g → IsLocalMax 0 1 g (g 0)) := by
  refine ⟨by decide +kernel, ?_, ?_, ?_⟩
  · intro v p _ _ _ hp
    have : certAt exSymbolic exCert v p = 1 / 3 - p := by
      simp [certAt, exCert, exSymbolic]; ring
    rw [this]; linarith
  · intro v g hg
    rw [exCert_fun hg]
    refine ⟨by norm_num, by norm_num, fun y _ _ hy => ?_⟩
    rw [exCert_fun hg] at hy
    linarith
  · intro v g hg
    rw [exCert_fun hg]
    refine ⟨by norm_num, by norm_num, Or.inr fun δ hδ => ?_⟩
    refine ⟨1 / 3 + min (δ / 2) (1 / 2), ?_, ?_, ?_, ?_⟩
    · have : 0 < min (δ / 2) (1 / 2) := lt_min (by linarith) (by norm_num)
      linarith
    · have : min (δ / 2) (1 / 2) ≤ δ / 2 := min_le_left _ _
      linarith
    · have : min (δ / 2) (1 / 2) ≤ 1 / 2 := min_le_right _ _
      linarith
    · rw [exCert_fun hg]
      have : 0 < min (δ / 2) (1 / 2) := lt_min (by linarith) (by norm_num)
      linarith

/-- the hypotheses of `C38_terminates` are met -/
example : maximizeViaDual exSymbolic exCert (fun _ => 1 / 3) 1 (1 / 100) (101 + 2) ≠ none :=
  C38_terminates (b0 := 0) (fun _ => by norm_num) 101 (by norm_num) (by norm_num)

/-- the certificate `(p - 1/4)(p - 3/4)` at every parameter -/
def holeCert (_ : ℚ) : List (String × ℚ) := [("1", 3 / 16), ("p", -1), ("pp", 1)]

theorem holeCert_fun {v : ℚ} {g : ℚ → ℚ} (h : certFunction exSymbolic (holeCert v) = some g) (p : ℚ) :
    g p = (p - 1 / 4) * (p - 3 / 4) := by
  rw [certFunction_eq _ _ h]
  simp [holeCert, exSymbolic]
  ring

/-- **C38, a local method can discard feasible parameters** when feasibility is not monotone: the parameters up to `1/4` and from
`3/4` on are feasible, the certificate is sound, the inner optimisation stops at the local maximum `1/4`, and `1/4` is returned
although `3/4` is feasible. -/
theorem C38_local_discards_feasible :
    ∃ feasible : ℚ → Prop, feasible (3 / 4) ∧ Sound exSymbolic holeCert feasible 0 1 ∧
      (∀ v g, certFunction exSymbolic (holeCert v) = some g → IsLocalMax 0 1 g (1 / 4)) ∧
      ∃ certs, maximizeViaDual exSymbolic holeCert (fun _ => 1 / 4) 1 (1 / 100) 10 = some (some (1 / 4, certs)) := by
  refine ⟨fun p => p ≤ 1 / 4 ∨ 3 / 4 ≤ p, Or.inr le_rfl, ?_, ?_, [(1, 1 / 4), (1 / 4 + 1 / 100, 1 / 4)], by decide +kernel⟩
  · intro v p _ _ _ hp
    have : certAt exSymbolic holeCert v p = (p - 1 / 4) * (p - 3 / 4) := by
      simp [certAt, holeCert, exSymbolic]; ring
    rw [this]
    rcases hp with hp | hp
    · exact mul_nonneg_of_nonpos_of_nonpos (by linarith) (by linarith)
    · exact mul_nonneg (by linarith) (by linarith)
  · intro v g hg
    refine ⟨by norm_num, by norm_num, Or.inr fun δ hδ => ?_⟩
    have h1 : 0 < min (δ / 2) (1 / 4) := lt_min (by linarith) (by norm_num)
    have h2 : min (δ / 2) (1 / 4) ≤ δ / 2 := min_le_left _ _
    have h3 : min (δ / 2) (1 / 4) ≤ 1 / 4 := min_le_right _ _
    refine ⟨1 / 4 + min (δ / 2) (1 / 4), by linarith, by linarith, by linarith, ?_⟩
    rw [holeCert_fun hg]
    exact mul_neg_of_pos_of_neg (by linarith) (by linarith)

/-- the certificate `1/3 - p` at the upper end and `1/2 - p` elsewhere -/
def weakCert (v : ℚ) : List (String × ℚ) := if v = 1 then [("1", 1 / 3), ("p", -1)] else [("1", 1 / 2), ("p", -1)]

/-- **C38.**  The returned value can be larger than a bound already obtained: the loop stops as soon as a bound does not decrease,
and the larger of the last two is returned. -/
theorem C38_returns_weaker_bound :
    ∃ certs, maximizeViaDual exSymbolic weakCert (fun g => g 0) 1 (1 / 100) 10 = some (some (1 / 2, certs)) ∧
      ∃ t ∈ certs, t.2 = 1 / 3 := by
  exact ⟨[(1, 1 / 3), (1 / 3 + 1 / 100, 1 / 2)], by decide +kernel, (1, 1 / 3), by simp, rfl⟩

end Verif.Optimize

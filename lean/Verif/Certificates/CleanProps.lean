import Verif.Certificates.CleanLemmas
import Mathlib.Algebra.Order.Ring.Rat
import Mathlib.Data.Rat.Floor
import Mathlib.Tactic.NormNum

/-!
# C36: cleaning the coefficients of a certificate

`inflation.utils.clean_coefficients`.  Statements are about the items of the dictionary before and
after, in order; `certValue cert x` is the value of the certificate at a point `x`.
-/

namespace Verif.Certificates

set_option linter.unusedSectionVars false

variable {α : Type} {K : Type} [Field K] [LinearOrder K] [IsStrictOrderedRing K] [FloorRing K]

/-- The value of a certificate (a linear combination of monomials) when the monomials have values
`x`. -/
def certValue (cert : List (α × K)) (x : α → K) : K := (cert.map fun kc => kc.2 * x kc.1).sum

/-- **C36.**  There is one positive number such that every coefficient is divided by it and then
either set to zero, if the quotient is within the tolerance, or moved by at most half a unit of the
last kept decimal.  Keys and their order are unchanged. -/
theorem C36_scaled_and_rounded {cert out : List (α × K)} {tol : K} {d : Int}
    (h : cleanCoefficients cert tol d = some out) :
    ∃ s : K, 0 < s ∧ List.Forall₂ (fun a b => b.1 = a.1 ∧
      ((|a.2 / s| ≤ |tol| ∧ b.2 = 0) ∨
        (|tol| < |a.2 / s| ∧ |b.2 - a.2 / s| ≤ 1 / 2 / (10 : K) ^ d))) cert out := by
  by_cases hne : cert = []
  · subst hne
    rw [show out = [] from (Option.some.inj h).symm]
    exact ⟨1, one_pos, List.Forall₂.nil⟩
  · obtain ⟨s, hs, rfl⟩ := clean_inv h hne
    obtain ⟨h1, -⟩ := normalisingFactor_spec (abs_nonneg tol) hs
    refine ⟨s, lt_of_le_of_lt (abs_nonneg _) h1, ?_⟩
    rw [List.forall₂_map_right_iff, List.forall₂_same]
    intro kc _
    refine ⟨rfl, ?_⟩
    by_cases hc : |kc.2 / s| ≤ |tol|
    · left
      simp only [if_pos hc, roundDec_zero]
      exact ⟨hc, trivial⟩
    · right
      simp only [if_neg hc]
      exact ⟨not_le.mp hc, roundDec_close d _⟩

/-- **C36.**  Cleaning never flips the sign of a coefficient. -/
theorem C36_signs {cert out : List (α × K)} {tol : K} {d : Int}
    (h : cleanCoefficients cert tol d = some out) :
    List.Forall₂ (fun a b => (0 ≤ a.2 → 0 ≤ b.2) ∧ (a.2 ≤ 0 → b.2 ≤ 0)) cert out := by
  by_cases hne : cert = []
  · subst hne
    rw [show out = [] from (Option.some.inj h).symm]
    exact List.Forall₂.nil
  · obtain ⟨s, hs, rfl⟩ := clean_inv h hne
    obtain ⟨h1, -⟩ := normalisingFactor_spec (abs_nonneg tol) hs
    have hpos : 0 < s := lt_of_le_of_lt (abs_nonneg _) h1
    rw [List.forall₂_map_right_iff, List.forall₂_same]
    intro kc _
    constructor
    · intro h0
      have : (0 : K) ≤ if |kc.2 / s| ≤ |tol| then 0 else kc.2 / s := by
        split
        · exact le_rfl
        · exact div_nonneg h0 hpos.le
      simpa [roundDec_zero] using roundDec_mono d this
    · intro h0
      have : (if |kc.2 / s| ≤ |tol| then 0 else kc.2 / s) ≤ (0 : K) := by
        split
        · exact le_rfl
        · exact div_nonpos_of_nonpos_of_nonneg h0 hpos.le
      simpa [roundDec_zero] using roundDec_mono d this

/-- **C36.**  The call fails exactly on non-empty certificates all of whose coefficients are within
the tolerance. -/
theorem C36_fails_iff {cert : List (α × K)} {tol : K} {d : Int} :
    cleanCoefficients cert tol d = none ↔ cert ≠ [] ∧ ∀ kc ∈ cert, |kc.2| ≤ |tol| := by
  cases cert with
  | nil => simp [cleanCoefficients]
  | cons x xs =>
    have hn := normalisingFactor_none (tol := |tol|) (cs := (x :: xs).map Prod.snd)
    have e : cleanCoefficients (x :: xs) tol d = none ↔
        normalisingFactor |tol| ((x :: xs).map Prod.snd) = none := by
      unfold cleanCoefficients
      simp only [absK_eq]
      cases normalisingFactor |tol| ((x :: xs).map Prod.snd) <;> simp
    rw [e, hn]
    constructor
    · intro h
      exact ⟨by simp, fun kc hk => h _ (List.mem_map.mpr ⟨kc, hk, rfl⟩)⟩
    · rintro ⟨-, h⟩ c hc
      obtain ⟨kc, hk, rfl⟩ := List.mem_map.mp hc
      exact h kc hk

/-- **C36.**  With a tolerance strictly between zero and one and at least zero decimals, no
coefficient above the tolerance is lost: it becomes at least one in absolute value; and one of them
becomes exactly plus or minus one. -/
theorem C36_significant_kept {cert out : List (α × K)} {tol : K} {d : Int} (hd : 0 ≤ d)
    (ht0 : tol ≠ 0) (ht1 : |tol| < 1) (hne : cert ≠ [])
    (h : cleanCoefficients cert tol d = some out) :
    List.Forall₂ (fun a b => |tol| < |a.2| → 1 ≤ |b.2|) cert out ∧
      ∃ b ∈ out, |b.2| = 1 := by
  obtain ⟨s, hs, rfl⟩ := clean_inv h hne
  obtain ⟨h1, ⟨c₀, hc₀, he₀⟩, h2, -⟩ := normalisingFactor_spec (abs_nonneg tol) hs
  have htp : 0 < |tol| := abs_pos.mpr ht0
  have hpos : 0 < s := lt_of_le_of_lt (abs_nonneg _) h1
  constructor
  · rw [List.forall₂_map_right_iff, List.forall₂_same]
    intro kc hk hlt
    have hsc : 1 ≤ |kc.2 / s| := by
      rw [abs_div, abs_of_pos hpos, le_div_iff₀ hpos, one_mul]
      exact h2 htp _ (List.mem_map.mpr ⟨kc, hk, rfl⟩) hlt
    have hnot : ¬ |kc.2 / s| ≤ |tol| := not_le.mpr (ht1.trans_le hsc)
    simp only [if_neg hnot]
    rcases le_total 0 (kc.2 / s) with h0 | h0
    · rw [abs_of_nonneg h0] at hsc
      have := roundDec_mono d hsc
      have e := roundDec_int (K := K) hd 1
      push_cast at e
      rw [e] at this
      exact this.trans (le_abs_self _)
    · rw [abs_of_nonpos h0] at hsc
      have hle : kc.2 / s ≤ -1 := by linarith
      have := roundDec_mono d hle
      have e := roundDec_int (K := K) hd (-1)
      push_cast at e
      rw [e] at this
      have h3 := neg_abs_le (roundDec d (kc.2 / s))
      linarith
  · obtain ⟨kc, hk, rfl⟩ := List.mem_map.mp hc₀
    refine ⟨_, List.mem_map.mpr ⟨kc, hk, rfl⟩, ?_⟩
    have hq : |kc.2 / s| = 1 := by
      rw [abs_div, abs_of_pos hpos, he₀, div_self hpos.ne']
    have hnot : ¬ |kc.2 / s| ≤ |tol| := by rw [hq]; exact not_le.mpr ht1
    simp only [if_neg hnot]
    rcases eq_or_eq_neg_of_abs_eq hq with h0 | h0
    · rw [h0]
      have e := roundDec_int (K := K) hd 1
      push_cast at e
      rw [e, abs_one]
    · rw [h0]
      have e := roundDec_int (K := K) hd (-1)
      push_cast at e
      rw [e, abs_neg, abs_one]

/-- **C36.**  With tolerance zero (and at least zero decimals) all coefficients end up between minus
one and one and the largest becomes exactly plus or minus one. -/
theorem C36_zero_tolerance {cert out : List (α × K)} {d : Int} (hd : 0 ≤ d) (hne : cert ≠ [])
    (h : cleanCoefficients cert 0 d = some out) :
    (∀ b ∈ out, |b.2| ≤ 1) ∧ ∃ b ∈ out, |b.2| = 1 := by
  obtain ⟨s, hs, rfl⟩ := clean_inv h hne
  rw [abs_zero] at hs
  obtain ⟨hpos, ⟨c₀, hc₀, he₀⟩, -, h2⟩ := normalisingFactor_spec le_rfl hs
  have e1 := roundDec_int (K := K) hd 1
  have e2 := roundDec_int (K := K) hd (-1)
  push_cast at e1 e2
  constructor
  · intro b hb
    obtain ⟨kc, hk, rfl⟩ := List.mem_map.mp hb
    have hsc : |kc.2 / s| ≤ 1 := by
      rw [abs_div, abs_of_pos hpos, div_le_iff₀ hpos, one_mul]
      exact h2 rfl _ (List.mem_map.mpr ⟨kc, hk, rfl⟩)
    have hsc' : |if |kc.2 / s| ≤ |(0 : K)| then 0 else kc.2 / s| ≤ 1 := by
      split
      · rw [abs_zero]; exact zero_le_one
      · exact hsc
    obtain ⟨l, u⟩ := abs_le.mp hsc'
    rw [abs_le]
    exact ⟨e2 ▸ roundDec_mono d l, e1 ▸ roundDec_mono d u⟩
  · obtain ⟨kc, hk, rfl⟩ := List.mem_map.mp hc₀
    refine ⟨_, List.mem_map.mpr ⟨kc, hk, rfl⟩, ?_⟩
    have hq : |kc.2 / s| = 1 := by
      rw [abs_div, abs_of_pos hpos, he₀, div_self hpos.ne']
    have hnot : ¬ |kc.2 / s| ≤ |(0 : K)| := by
      rw [hq, abs_zero]; exact not_le.mpr one_pos
    simp only [if_neg hnot]
    rcases eq_or_eq_neg_of_abs_eq hq with h0 | h0
    · rw [h0, e1, abs_one]
    · rw [h0, e2, abs_neg, abs_one]

/-- **C36.**  How far the value of the cleaned certificate can be from the rescaled value of the
original: at monomial values between minus one and one, at most the number of terms times the larger
of the tolerance and half a unit of the last kept decimal. -/
theorem C36_value_close {cert out : List (α × K)} {tol : K} {d : Int}
    (h : cleanCoefficients cert tol d = some out) :
    ∃ s : K, 0 < s ∧ ∀ x : α → K, (∀ k, |x k| ≤ 1) →
      |certValue out x - certValue cert x / s| ≤
        (cert.length : K) * max |tol| (1 / 2 / (10 : K) ^ d) := by
  obtain ⟨s, hs, hF⟩ := C36_scaled_and_rounded h
  refine ⟨s, hs, fun x hx => ?_⟩
  clear h
  induction hF with
  | nil => simp [certValue]
  | @cons a b l₁ l₂ hab _ ih =>
    obtain ⟨hk, hv⟩ := hab
    have hb : |b.2 - a.2 / s| ≤ max |tol| (1 / 2 / (10 : K) ^ d) := by
      rcases hv with ⟨h1, h2⟩ | ⟨-, h1⟩
      · rw [h2, zero_sub, abs_neg]; exact h1.trans (le_max_left _ _)
      · exact h1.trans (le_max_right _ _)
    have e : certValue (b :: l₂) x - certValue (a :: l₁) x / s =
        (b.2 - a.2 / s) * x a.1 + (certValue l₂ x - certValue l₁ x / s) := by
      simp only [certValue, List.map_cons, List.sum_cons, hk]
      field_simp
      ring
    rw [e]
    refine (abs_add_le _ _).trans ?_
    have h1 : |(b.2 - a.2 / s) * x a.1| ≤ max |tol| (1 / 2 / (10 : K) ^ d) := by
      rw [abs_mul]
      calc |b.2 - a.2 / s| * |x a.1| ≤ |b.2 - a.2 / s| * 1 :=
            mul_le_mul_of_nonneg_left (hx _) (abs_nonneg _)
        _ ≤ _ := by rw [mul_one]; exact hb
    have h2 : (((a :: l₁).length : Nat) : K) * max |tol| (1 / 2 / (10 : K) ^ d) =
        max |tol| (1 / 2 / (10 : K) ^ d) +
          ((l₁.length : Nat) : K) * max |tol| (1 / 2 / (10 : K) ^ d) := by
      rw [List.length_cons]; push_cast; ring
    rw [h2]
    exact add_le_add h1 ih

/-- **C36.**  Cleaning twice is the same as cleaning once (for tolerances strictly between zero and
one, a non-negative number of decimals, and certificates whose coefficients within the tolerance are
exactly zero; see `C36_small_not_chopped` for why the last condition is needed). -/
theorem C36_idempotent {cert out : List (α × K)} {tol : K} {d : Int} (hd : 0 ≤ d)
    (ht0 : tol ≠ 0) (ht1 : |tol| < 1) (hz : ∀ kc ∈ cert, |kc.2| ≤ |tol| → kc.2 = 0)
    (h : cleanCoefficients cert tol d = some out) :
    cleanCoefficients out tol d = some out := by
  by_cases hne : cert = []
  · subst hne
    rw [show out = [] from (Option.some.inj h).symm]
    rfl
  have hkept := C36_significant_kept hd ht0 ht1 hne h
  obtain ⟨s, hs, hout⟩ := clean_inv h hne
  have hpos : 0 < s := lt_of_le_of_lt (abs_nonneg _) (normalisingFactor_spec (abs_nonneg tol) hs).1
  -- every new coefficient is zero or at least one in absolute value
  have hbig : ∀ b ∈ out, b.2 = 0 ∨ 1 ≤ |b.2| := by
    intro b hb
    rw [hout] at hb
    obtain ⟨kc, hk, rfl⟩ := List.mem_map.mp hb
    by_cases hle : |kc.2| ≤ |tol|
    · left
      have := hz kc hk hle
      have hq : |kc.2 / s| ≤ |tol| := by rw [this, zero_div, abs_zero]; exact abs_nonneg _
      simp only [if_pos hq, roundDec_zero]
    · right
      have hF := hkept.1
      rw [hout, List.forall₂_map_right_iff, List.forall₂_same] at hF
      exact hF kc hk (not_le.mp hle)
  have hne' : out ≠ [] := by
    obtain ⟨b, hb, -⟩ := hkept.2
    exact List.ne_nil_of_mem hb
  have hgrid : ∀ b ∈ out, roundDec d b.2 = b.2 := by
    intro b hb
    rw [hout] at hb
    obtain ⟨kc, hk, rfl⟩ := List.mem_map.mp hb
    exact roundDec_idem d _
  obtain ⟨b₁, hb₁, hone⟩ := hkept.2
  cases h2 : cleanCoefficients out tol d with
  | none =>
    have := (C36_fails_iff.mp h2).2 b₁ hb₁
    rw [hone] at this
    exact absurd this (not_le.mpr ht1)
  | some out2 =>
    obtain ⟨s2, hs2, rfl⟩ := clean_inv h2 hne'
    obtain ⟨ht2, ⟨c, hc, hce⟩, hmin, -⟩ := normalisingFactor_spec (abs_nonneg tol) hs2
    have hs21 : s2 = 1 := by
      apply le_antisymm
      · have := hmin (abs_pos.mpr ht0) _ (List.mem_map.mpr ⟨b₁, hb₁, rfl⟩) (by rw [hone]; exact ht1)
        rwa [hone] at this
      · obtain ⟨kc, hk, rfl⟩ := List.mem_map.mp hc
        rcases hbig kc hk with h0 | h0
        · rw [h0, abs_zero] at hce
          rw [← hce] at ht2
          exact absurd ht2 (not_lt.mpr (abs_nonneg _))
        · rw [← hce]; exact h0
    subst hs21
    congr 1
    conv_rhs => rw [← List.map_id out]
    apply List.map_congr_left
    intro kc hk
    rw [div_one]
    rcases hbig kc hk with h0 | h0
    · have hle : |kc.2| ≤ |tol| := by rw [h0, abs_zero]; exact abs_nonneg _
      rw [if_pos hle, roundDec_zero]
      exact Prod.ext rfl h0.symm
    · rw [if_neg (not_le.mpr (ht1.trans_le h0)), hgrid kc hk]
      rfl

/-! ### Concrete cases -/

/-- a typical call: the smallest significant coefficient becomes one, noise becomes zero -/
example : cleanCoefficients [("1", (2 : ℚ) / 10), ("pA(0|0)", -1 / 3), ("pB(0|0)", 1 / 10 ^ 12)]
    (1 / 10 ^ 10) 3 = some [("1", 1), ("pA(0|0)", -1667 / 1000), ("pB(0|0)", 0)] := by
  decide +kernel

/-- all coefficients within the tolerance: `np.min` of an empty array raises -/
example : cleanCoefficients [("1", (1 : ℚ) / 10 ^ 11)] (1 / 10 ^ 10) 3 = none := by decide +kernel

/-- the hypotheses of `C36_significant_kept` and `C36_idempotent` -/
example : (0 : Int) ≤ 3 ∧ ((1 : ℚ) / 10 ^ 10) ≠ 0 ∧ |(1 : ℚ) / 10 ^ 10| < 1 := by
  refine ⟨by decide, by norm_num, ?_⟩
  rw [abs_of_pos (by norm_num)]; norm_num

/-- **C36, documented chopping is false.**  "Coefficients in the dual certificate smaller in absolute
value [than `chop_tol`] are set to zero": the comparison is made after rescaling, so a coefficient
below the tolerance survives. -/
theorem C36_small_not_chopped :
    ∃ out : List (String × ℚ),
      cleanCoefficients [("1", (2 : ℚ) / 10 ^ 10), ("x", 9 / 10 ^ 11)] (1 / 10 ^ 10) 3 = some out ∧
      ("x", 45 / 100) ∈ out := by
  refine ⟨[("1", 1), ("x", 45 / 100)], ?_, ?_⟩
  · decide +kernel
  · exact List.mem_cons_of_mem _ (List.mem_cons_self ..)

/-- **C36, cleaning can invalidate a certificate.**  The certificate `1 - 2.0006 x` is non-negative
for every `x` up to `0.4998`; its cleaned version with the default options is negative at `0.4998`,
so a compatible point would be declared incompatible. -/
theorem C36_rounding_excludes_compatible :
    ∃ out : List (String × ℚ),
      cleanCoefficients [("1", (1 : ℚ)), ("x", -20006 / 10000)] (1 / 10 ^ 10) 3 = some out ∧
      (∀ v : ℚ, v ≤ 4998 / 10000 →
        0 ≤ certValue [("1", (1 : ℚ)), ("x", -20006 / 10000)] (fun k => if k = "1" then 1 else v)) ∧
      certValue out (fun k => if k = "1" then 1 else 4998 / 10000) < 0 := by
  refine ⟨[("1", 1), ("x", -2001 / 1000)], ?_, ?_, ?_⟩
  · decide +kernel
  · intro v hv
    have e : certValue [("1", (1 : ℚ)), ("x", -20006 / 10000)] (fun k => if k = "1" then 1 else v) =
        1 - 20006 / 10000 * v := by
      simp [certValue]; ring
    rw [e]; linarith
  · decide +kernel

end Verif.Certificates

import Verif.Certificates.Clean

/-! # Lemmas about rounding and about the normalising factor -/

set_option linter.unusedSectionVars false

namespace Verif.Certificates

variable {α : Type} {K : Type} [Field K] [LinearOrder K] [IsStrictOrderedRing K] [FloorRing K]

theorem absK_eq (x : K) : absK x = |x| := by
  unfold absK
  split
  · rename_i h; rw [abs_of_neg h]
  · rename_i h; rw [abs_of_nonneg (not_lt.mp h)]

theorem rint_close (x : K) : |(rint x : K) - x| ≤ 1 / 2 := by
  have h0 := Int.floor_le x
  have h1 := Int.lt_floor_add_one x
  unfold rint
  split
  · rename_i h
    rw [abs_le]; constructor <;> linarith
  · rename_i h
    split
    · rename_i h2
      push_cast
      rw [abs_le]; constructor <;> linarith
    · rename_i h2
      split
      · rw [abs_le]; constructor <;> linarith
      · push_cast
        rw [abs_le]; constructor <;> linarith

theorem rint_int (n : Int) : rint (n : K) = n := by
  unfold rint
  simp

theorem rint_mono {x y : K} (h : x ≤ y) : rint x ≤ rint y := by
  by_contra hc
  push Not at hc
  have hx := abs_le.mp (rint_close x)
  have hy := abs_le.mp (rint_close y)
  have h1 : (rint y : K) + 1 ≤ (rint x : K) := by exact_mod_cast hc
  -- both are at the half way point, so x = y
  have : x = y := by
    apply le_antisymm h
    linarith [hx.1, hx.2, hy.1, hy.2]
  rw [this] at hc
  exact lt_irrefl _ hc

theorem pow10_pos (d : Int) : (0 : K) < (10 : K) ^ d := by positivity

theorem roundDec_close (d : Int) (x : K) : |roundDec d x - x| ≤ 1 / 2 / (10 : K) ^ d := by
  have hp := pow10_pos (K := K) d
  have : roundDec d x - x = ((rint (x * (10 : K) ^ d) : K) - x * (10 : K) ^ d) / (10 : K) ^ d := by
    unfold roundDec
    field_simp
  rw [this, abs_div, abs_of_pos hp]
  exact div_le_div_of_nonneg_right (rint_close _) hp.le

theorem roundDec_mono (d : Int) {x y : K} (h : x ≤ y) : roundDec d x ≤ roundDec d y := by
  have hp := pow10_pos (K := K) d
  unfold roundDec
  apply div_le_div_of_nonneg_right _ hp.le
  exact_mod_cast rint_mono (mul_le_mul_of_nonneg_right h hp.le)

/-- a multiple of the last kept decimal is left alone -/
theorem roundDec_grid (d : Int) (n : Int) :
    roundDec d ((n : K) / (10 : K) ^ d) = (n : K) / (10 : K) ^ d := by
  have hp := pow10_pos (K := K) d
  unfold roundDec
  rw [div_mul_cancel₀ _ hp.ne', rint_int]

theorem roundDec_zero (d : Int) : roundDec d (0 : K) = 0 := by
  have := roundDec_grid (K := K) d 0
  simpa using this

theorem roundDec_idem (d : Int) (x : K) : roundDec d (roundDec d x) = roundDec d x :=
  roundDec_grid d _

theorem roundDec_int {d : Int} (hd : 0 ≤ d) (n : Int) : roundDec d (n : K) = n := by
  obtain ⟨k, rfl⟩ := Int.eq_ofNat_of_zero_le hd
  have hp : (10 : K) ^ ((k : Nat) : Int) ≠ 0 := (pow10_pos _).ne'
  have := roundDec_grid (K := K) ((k : Nat) : Int) (n * 10 ^ k)
  have e : ((n * 10 ^ k : Int) : K) / (10 : K) ^ ((k : Nat) : Int) = n := by
    rw [div_eq_iff hp]; push_cast; rw [zpow_natCast]
  rw [e] at this
  exact this

/-! ### minima and maxima -/

theorem foldl_min (xs : List K) (x : K) :
    let m := xs.foldl (fun a b => if b < a then b else a) x
    (m = x ∨ m ∈ xs) ∧ m ≤ x ∧ ∀ y ∈ xs, m ≤ y := by
  induction xs generalizing x with
  | nil => simp
  | cons a xs ih =>
    simp only [List.foldl_cons]
    obtain ⟨h1, h2, h3⟩ := ih (if a < x then a else x)
    have hle : (if a < x then a else x) ≤ x ∧ (if a < x then a else x) ≤ a := by
      split
      · rename_i h; exact ⟨h.le, le_rfl⟩
      · rename_i h; exact ⟨le_rfl, not_lt.mp h⟩
    refine ⟨?_, h2.trans hle.1, ?_⟩
    · rcases h1 with h1 | h1
      · rw [h1]
        split
        · exact Or.inr (List.mem_cons_self ..)
        · exact Or.inl rfl
      · exact Or.inr (List.mem_cons_of_mem _ h1)
    · intro y hy
      rcases List.mem_cons.mp hy with rfl | hy
      · exact h2.trans hle.2
      · exact h3 y hy

theorem foldl_max (xs : List K) (x : K) :
    let m := xs.foldl (fun a b => if a < b then b else a) x
    (m = x ∨ m ∈ xs) ∧ x ≤ m ∧ ∀ y ∈ xs, y ≤ m := by
  induction xs generalizing x with
  | nil => simp
  | cons a xs ih =>
    simp only [List.foldl_cons]
    obtain ⟨h1, h2, h3⟩ := ih (if x < a then a else x)
    have hle : x ≤ (if x < a then a else x) ∧ a ≤ (if x < a then a else x) := by
      split
      · rename_i h; exact ⟨h.le, le_rfl⟩
      · rename_i h; exact ⟨le_rfl, not_lt.mp h⟩
    refine ⟨?_, hle.1.trans h2, ?_⟩
    · rcases h1 with h1 | h1
      · rw [h1]
        split
        · exact Or.inr (List.mem_cons_self ..)
        · exact Or.inl rfl
      · exact Or.inr (List.mem_cons_of_mem _ h1)
    · intro y hy
      rcases List.mem_cons.mp hy with rfl | hy
      · exact hle.2.trans h2
      · exact h3 y hy

theorem npMin_spec {xs : List K} {m : K} (h : npMin xs = some m) : m ∈ xs ∧ ∀ y ∈ xs, m ≤ y := by
  cases xs with
  | nil => cases h
  | cons x xs =>
    obtain ⟨h1, h2, h3⟩ := foldl_min xs x
    have e : xs.foldl (fun a b => if b < a then b else a) x = m := Option.some.inj h
    simp only [e] at h1 h2 h3
    refine ⟨?_, ?_⟩
    · rcases h1 with rfl | h1
      · exact List.mem_cons_self ..
      · exact List.mem_cons_of_mem _ h1
    · intro y hy
      rcases List.mem_cons.mp hy with rfl | hy
      · exact h2
      · exact h3 y hy

theorem npMax_spec {xs : List K} {m : K} (h : npMax xs = some m) : m ∈ xs ∧ ∀ y ∈ xs, y ≤ m := by
  cases xs with
  | nil => cases h
  | cons x xs =>
    obtain ⟨h1, h2, h3⟩ := foldl_max xs x
    have e : xs.foldl (fun a b => if a < b then b else a) x = m := Option.some.inj h
    simp only [e] at h1 h2 h3
    refine ⟨?_, ?_⟩
    · rcases h1 with rfl | h1
      · exact List.mem_cons_self ..
      · exact List.mem_cons_of_mem _ h1
    · intro y hy
      rcases List.mem_cons.mp hy with rfl | hy
      · exact h2
      · exact h3 y hy

theorem normalisingFactor_spec {tol s : K} {cs : List K} (htol : 0 ≤ tol)
    (h : normalisingFactor tol cs = some s) :
    tol < s ∧ (∃ c ∈ cs, |c| = s) ∧
      (0 < tol → ∀ c ∈ cs, tol < |c| → s ≤ |c|) ∧
      (tol = 0 → ∀ c ∈ cs, |c| ≤ s) := by
  unfold normalisingFactor at h
  have key : ∀ {m : K}, m ∈ (cs.filter (fun c => decide (tol < absK c))).map absK →
      ∃ c ∈ cs, tol < |c| ∧ |c| = m := by
    intro m hm
    obtain ⟨c, hc, rfl⟩ := List.mem_map.mp hm
    rw [List.mem_filter] at hc
    refine ⟨c, hc.1, ?_, (absK_eq c).symm⟩
    rw [← absK_eq]; exact of_decide_eq_true hc.2
  have back : ∀ c ∈ cs, tol < |c| → |c| ∈ (cs.filter (fun c => decide (tol < absK c))).map absK := by
    intro c hc hlt
    refine List.mem_map.mpr ⟨c, List.mem_filter.mpr ⟨hc, ?_⟩, absK_eq c⟩
    rw [absK_eq]; exact decide_eq_true hlt
  simp only at h
  split at h
  · rename_i ht
    obtain ⟨h1, h2⟩ := npMin_spec h
    obtain ⟨c, hc, hl, he⟩ := key h1
    refine ⟨he ▸ hl, ⟨c, hc, he⟩, fun _ c hc hl => h2 _ (back c hc hl), fun h0 => ?_⟩
    rw [h0] at ht; exact absurd ht (lt_irrefl _)
  · rename_i ht
    obtain ⟨h1, h2⟩ := npMax_spec h
    obtain ⟨c, hc, hl, he⟩ := key h1
    refine ⟨he ▸ hl, ⟨c, hc, he⟩, fun h0 => absurd h0 ht, fun h0 c' hc' => ?_⟩
    by_cases hl' : tol < |c'|
    · exact h2 _ (back c' hc' hl')
    · exact (not_lt.mp hl').trans (he ▸ hl).le

theorem normalisingFactor_none {tol : K} {cs : List K} :
    normalisingFactor tol cs = none ↔ ∀ c ∈ cs, |c| ≤ tol := by
  have hn : ∀ l : List K, npMin l = none ↔ l = [] := by
    intro l; cases l <;> simp [npMin]
  have hx : ∀ l : List K, npMax l = none ↔ l = [] := by
    intro l; cases l <;> simp [npMax]
  unfold normalisingFactor
  simp only
  have : (if 0 < tol then npMin ((cs.filter (fun c => decide (tol < absK c))).map absK)
      else npMax ((cs.filter (fun c => decide (tol < absK c))).map absK)) = none ↔
      (cs.filter (fun c => decide (tol < absK c))).map absK = [] := by
    split
    · exact hn _
    · exact hx _
  rw [this, List.map_eq_nil_iff, List.filter_eq_nil_iff]
  simp [absK_eq]

/-- Everything a successful non-trivial call does, in one statement. -/
theorem clean_inv {cert out : List (α × K)} {tol : K} {d : Int}
    (h : cleanCoefficients cert tol d = some out) (hne : cert ≠ []) :
    ∃ s : K, normalisingFactor |tol| (cert.map Prod.snd) = some s ∧
      out = cert.map fun kc =>
        (kc.1, roundDec d (if |kc.2 / s| ≤ |tol| then 0 else kc.2 / s)) := by
  unfold cleanCoefficients at h
  cases cert with
  | nil => exact absurd rfl hne
  | cons x xs =>
    simp only [absK_eq] at h
    cases hs : normalisingFactor |tol| ((x :: xs).map Prod.snd) with
    | none => rw [hs] at h; cases h
    | some s =>
      rw [hs] at h
      exact ⟨s, rfl, (Option.some.inj h).symm⟩

end Verif.Certificates

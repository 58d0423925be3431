import Verif.SdpWriter.Props
import Verif.Writers.LpWitness
import Mathlib.Tactic.NormNum
import Mathlib.Tactic.Positivity
/-
Concrete instances for C51 on SDPA files: a problem meeting all hypotheses, and the ways the exported program differs from the problem.
-/
namespace Verif.SdpWriter
open Verif.Text Verif.State Verif.SdpSolver Verif.Common Verif.Writers

/-- Read the literals `1.0` and `-1.0`, and fractions. -/
def sdpaNum (s : Str) : Option ℚ := if s = "1.0".toList then some 1 else if s = "-1.0".toList then some (-1) else ratNum s

theorem mem_ratFmt (q : ℚ) (c : Char) (h : c ∈ ratFmt q) : c = '-' ∨ c = '/' ∨ (48 ≤ c.toNat ∧ c.toNat ≤ 57) := by
  unfold ratFmt at h
  rcases List.mem_append.1 h with h | h
  · split at h
    · simp only [List.mem_singleton] at h; exact Or.inl h
    · cases h
  · rcases List.mem_append.1 h with h | h
    · exact Or.inr (Or.inr (natStr_digit _ c h))
    · rcases List.mem_cons.1 h with h | h
      · exact Or.inr (Or.inl h)
      · exact Or.inr (Or.inr (natStr_digit _ c h))

theorem slash_mem_ratFmt (q : ℚ) : '/' ∈ ratFmt q := by simp [ratFmt]

theorem sdpaNum_ratFmt (q : ℚ) : sdpaNum (ratFmt q) = some q := by
  unfold sdpaNum
  rw [if_neg, if_neg]
  · exact ratFmt_faithful.read q
  · intro e
    have := slash_mem_ratFmt q
    rw [e] at this
    revert this; decide
  · intro e
    have := slash_mem_ratFmt q
    rw [e] at this
    revert this; decide

theorem sdpaNum_neg (q : ℚ) (hq : 0 ≤ q) : sdpaNum ('-' :: ratFmt q) = some (-q) := by
  have hne : ∀ s : String, '/' ∉ s.toList → '-' :: ratFmt q ≠ s.toList := by
    intro s hs e
    exact hs (e ▸ List.mem_cons_of_mem _ (slash_mem_ratFmt q))
  unfold sdpaNum
  rw [if_neg (hne "1.0" (by decide)), if_neg (hne "-1.0" (by decide))]
  have h := ratFmt_faithful.read q
  show (readFrac (ratFmt q)).map (fun r : ℚ => -r) = some (-q)
  have e : ratFmt q = natStr q.num.natAbs ++ '/' :: natStr q.den := by
    unfold ratFmt
    rw [if_neg (not_lt.2 hq), List.nil_append]
  have hr : ratNum (ratFmt q) = readFrac (ratFmt q) := by
    rw [e]
    rcases hs : natStr q.num.natAbs with _ | ⟨c, s⟩
    · exact absurd hs (natStr_ne_nil _)
    · have hc : c ≠ '-' := by
        rintro rfl
        exact not_mem_natStr q.num.natAbs '-' (by decide) (by simp [hs])
      unfold ratNum
      split
      · rename_i s' heq
        exact absurd (List.cons.inj heq).1 hc
      · rfl
  rw [hr] at h
  rw [h]
  rfl

theorem rat_prints : Prints ratFmt sdpaNum where
  read := sdpaNum_ratFmt
  readNeg := sdpaNum_neg
  one := by decide
  negOne := by decide
  sep := by
    intro q c hc
    rcases mem_ratFmt q c hc with rfl | rfl | h
    · decide
    · decide
    · simp only [List.mem_cons, List.not_mem_nil, or_false]
      rintro (rfl | rfl | rfl | rfl | rfl | rfl | rfl | rfl) <;> revert h <;> decide
  ne_nil := by
    intro q e
    have := slash_mem_ratFmt q
    rw [e] at this
    cases this

/-- The constant `1e-8`. -/
def tol8 : ℚ := 1 / 100000000

/-- A square matrix from its rows. -/
def rows2 (a b c d : Nat) : Fin 2 → Fin 2 → Nat := fun i j => if i = 0 then (if j = 0 then a else b) else (if j = 0 then c else d)

def rows3 (l : List (List Nat)) : Fin 3 → Fin 3 → Nat := fun i j => (l.getD i []).getD j 0

/-- A problem with known, semi-known and unknown moments, bounds, an equality and an inequality. -/
def demo : Prob ℚ 3 where
  mm := rows3 [[1, 2, 3], [2, 2, 4], [3, 4, 5]]
  known := [(1, 1), (2, 1/2)]
  semi := [(4, (1/2, 3))]
  objective := [(1, 2), (3, 1), (5, -1)]
  upper := [(3, 1)]
  lower := [(1, 0), (3, 0), (4, 0), (5, 1/10)]
  eqs := [[(3, 1), (5, 1), (1, -1)]]
  ineqs := [[(3, 1), (5, -1), (1, 1/4)]]

theorem demo_ok : demo.Ok := by constructor <;> decide +kernel

theorem demo_exportable : demo.Exportable tol8 := by constructor <;> decide +kernel

theorem demo_countable : demo.Countable where
  dense := by
    rintro k h2 ⟨i, j, h⟩
    have : ∀ i j : Fin 3, demo.mm i j ≤ 5 := by decide +kernel
    have := this i j
    have hk : k = 2 ∨ k = 3 ∨ k = 4 ∨ k = 5 := by omega
    rcases hk with rfl | rfl | rfl | rfl <;> decide +kernel
  one := by decide +kernel
  zero := by decide +kernel
  known := by decide +kernel
  semi := by decide +kernel
  targets := by decide +kernel

def demoText : Str := (writeToSdpa ratFmt tol8 "inst.dat-s".toList demo).get (by decide +kernel)

theorem demo_text : writeToSdpa ratFmt tol8 "inst.dat-s".toList demo = some demoText := by simp [demoText]

/-- The hypotheses of the three theorems are met by a problem that is exported. -/
example := C51_sdpa_partial rat_prints tol8 "inst.dat-s".toList (by decide) demo demo_ok demo_exportable demoText demo_text
example := C51_sdpa_in_range_partial rat_prints tol8 "inst.dat-s".toList (by decide) demo demo_ok demo_exportable demo_countable demoText demo_text
example : demo.Mentions := (C51_sdpa_written_iff ratFmt tol8 "inst.dat-s".toList demo demo_ok demo_countable).1 ⟨_, demo_text⟩

/-- And the program is feasible. -/
example : demo.Feasible fun k => [0, 1, 1/2, 1/2, 1/4, 1/2].getD k 0 where
  zero := by decide +kernel
  one := by decide +kernel
  known := by decide +kernel
  semi := by decide +kernel
  psd := by
    refine ⟨by decide +kernel, fun v => ?_⟩
    simp only [quad, Fin.sum_univ_three]
    simp [demo, rows3]
    have e : (v 0 + v 1 / 2 + v 2 / 2) ^ 2 + v 1 ^ 2 / 4 + v 2 ^ 2 / 4 = v 0 * v 0 + v 0 * 2⁻¹ * v 1 + v 0 * 2⁻¹ * v 2
        + (v 1 * 2⁻¹ * v 0 + v 1 * 2⁻¹ * v 1 + v 1 * 4⁻¹ * v 2) + (v 2 * 2⁻¹ * v 0 + v 2 * 4⁻¹ * v 1 + v 2 * 2⁻¹ * v 2) := by ring
    rw [← e]
    positivity
  upper := by decide +kernel
  lower := by decide +kernel
  eqs := by decide +kernel
  ineqs := by decide +kernel

theorem psd_ones : PSD (fun i j : Fin 2 => (1 : ℚ)) := by
  refine ⟨fun _ _ => rfl, fun v => ?_⟩
  simp only [quad, Fin.sum_univ_two]
  have : (v 0 + v 1) ^ 2 = v 0 * 1 * v 0 + v 0 * 1 * v 1 + (v 1 * 1 * v 0 + v 1 * 1 * v 1) := by ring
  rw [← this]
  positivity

/-- A problem without solution: a moment on the diagonal has the value -1. -/
def negative : Prob ℚ 2 where
  mm := rows2 1 2 2 2
  known := [(1, 1), (2, -1)]
  semi := []
  objective := [(1, 0)]
  upper := []
  lower := []
  eqs := []
  ineqs := []

/-- **C51 (SDPA), negation: negative values.** The sign of a negative known value is lost: there is a problem without solution whose exported program is feasible. -/
theorem C51_sdpa_sign_lost : ∃ (p : Prob ℚ 2) (txt : Str) (s : Sdpa ℚ), p.Ok ∧ p.Countable ∧ writeToSdpa ratFmt tol8 "f.dat-s".toList p = some txt
    ∧ readSdpa sdpaNum txt = some s ∧ (∀ v, ¬ p.Feasible v) ∧ ∃ x, s.Feasible x := by
  refine ⟨negative, (writeToSdpa ratFmt tol8 "f.dat-s".toList negative).get (by decide +kernel),
    ⟨0, [2], [], [(0, 1, 1, 1, -1), (0, 1, 1, 2, -1), (0, 1, 2, 2, -1)]⟩, by constructor <;> decide +kernel, ?_, by simp, by decide +kernel, ?_, fun _ => 0, ?_⟩
  · constructor
    · rintro k h2 ⟨i, j, h⟩
      have : ∀ i j : Fin 2, negative.mm i j ≤ 2 := by decide +kernel
      have := this i j
      obtain rfl : k = 2 := by omega
      decide +kernel
    all_goals decide +kernel
  · intro v hv
    have h := hv.psd.nonneg fun i => if i = 1 then 1 else 0
    simp [quad, Fin.sum_univ_two, negative, rows2] at h
    have := hv.known (2, -1) (by simp [negative])
    dsimp only at this
    rw [this] at h
    norm_num at h
  · intro k z hz
    rcases k with _ | k
    · simp only [List.getElem?_cons_zero, Option.some.injEq] at hz
      subst hz
      rw [if_pos (by omega)]
      have e : (fun i j : Fin (2 : Int).toNat => Sdpa.at ⟨0, [2], [], [(0, 1, 1, 1, -1), (0, 1, 1, 2, -1), (0, 1, 2, 2, -1)]⟩ (fun _ => (0 : ℚ)) (0 + 1)
          (i.val + 1) (j.val + 1)) = fun i j : Fin 2 => (1 : ℚ) := by
        funext i j
        revert i j
        decide +kernel
      rw [e]
      exact psd_ones
    · simp at hz

/-- A problem with a negative upper bound on an unknown moment. -/
def negativeUpper : Prob ℚ 2 where
  mm := rows2 1 2 2 3
  known := [(1, 1)]
  semi := []
  objective := [(1, 0)]
  upper := [(2, -1/2)]
  lower := []
  eqs := []
  ineqs := []

/-- **C51 (SDPA), negation: negative upper bounds.** They are written with two minus signs, which no reader of numbers that rejects a double sign accepts. -/
theorem C51_sdpa_negative_upper_unreadable : ∃ (p : Prob ℚ 2) (txt : Str), p.Ok ∧ writeToSdpa ratFmt tol8 "f.dat-s".toList p = some txt
    ∧ readSdpa sdpaNum txt = none ∧ "0\t2\t1\t1\t--1/2".toList ∈ splitAt '\n' txt := by
  refine ⟨negativeUpper, (writeToSdpa ratFmt tol8 "f.dat-s".toList negativeUpper).get (by decide +kernel), by constructor <;> decide +kernel, by simp,
    by decide +kernel, by decide +kernel⟩

/-- A problem without solution: its second inequality is `-1 ≥ 0`. -/
def twoInequalities : Prob ℚ 2 where
  mm := rows2 1 2 2 3
  known := [(1, 1)]
  semi := []
  objective := [(1, 0)]
  upper := []
  lower := []
  eqs := []
  ineqs := [[(2, 1)], [(1, -1)]]

theorem two_ok : twoInequalities.Ok := by constructor <;> decide +kernel

/-- **C51 (SDPA), negation: several inequalities.** The second inequality is written outside its block: there is a problem without solution whose exported program has entries
outside its blocks and is otherwise feasible. -/
theorem C51_sdpa_second_inequality_lost : ∃ (p : Prob ℚ 2) (txt : Str) (s : Sdpa ℚ), p.Ok ∧ writeToSdpa ratFmt tol8 "f.dat-s".toList p = some txt
    ∧ readSdpa sdpaNum txt = some s ∧ (∀ v, ¬ p.Feasible v) ∧ (∃ x, s.Feasible x) ∧ ¬ s.InRange := by
  refine ⟨twoInequalities, (writeToSdpa ratFmt tol8 "f.dat-s".toList twoInequalities).get (by decide +kernel),
    ⟨2, [2, -2], [0, 0], [(0, 1, 1, 1, -1), (1, 1, 1, 2, 1), (2, 1, 2, 2, 1), (0, 2, 3, 3, 1), (1, 2, 1, 1, 1)]⟩, two_ok, by simp,
    by decide +kernel, ?_, ⟨fun _ => 1, ?_⟩, ?_⟩
  · intro v hv
    have := hv.ineqs [(1, -1)] (by simp [twoInequalities])
    simp [lin, hv.one] at this
    norm_num at this
  · intro k z hz
    rcases k with _ | _ | k
    · simp only [List.getElem?_cons_zero, Option.some.injEq] at hz
      subst hz
      rw [if_pos (by omega)]
      have e : (fun i j : Fin (2 : Int).toNat => Sdpa.at ⟨2, [2, -2], [0, 0], [(0, 1, 1, 1, -1), (1, 1, 1, 2, 1), (2, 1, 2, 2, 1), (0, 2, 3, 3, 1), (1, 2, 1, 1, 1)]⟩
          (fun _ => (1 : ℚ)) (0 + 1) (i.val + 1) (j.val + 1)) = fun i j : Fin 2 => (1 : ℚ) := by
        funext i j
        revert i j
        decide +kernel
      rw [e]
      exact psd_ones
    · simp only [List.getElem?_cons_succ, List.getElem?_cons_zero, Option.some.injEq] at hz
      subst hz
      rw [if_neg (by omega)]
      intro i hi
      have hi' : i = 0 ∨ i = 1 := by
        have : i < 2 := hi
        omega
      rcases hi' with rfl | rfl <;> decide +kernel
    · simp at hz
  · intro h
    have := h.2 (0, 2, 3, 3, 1) (by simp)
    revert this
    rintro ⟨_, _, z, hz, _, _, h3, _⟩
    simp at hz
    subst hz
    norm_num at h3

/-- Maximise a moment between 0 and 1. -/
def maximise : Prob ℚ 2 where
  mm := rows2 1 2 2 2
  known := [(1, 1)]
  semi := []
  objective := [(1, 0), (2, 1)]
  upper := []
  lower := []
  eqs := []
  ineqs := []

def maximiseS : Sdpa ℚ := ⟨1, [2], [1], [(0, 1, 1, 1, -1), (1, 1, 1, 2, 1), (1, 1, 2, 2, 1)]⟩

theorem maximise_ok : maximise.Ok := by constructor <;> decide +kernel

theorem maximise_exportable : maximise.Exportable tol8 := by constructor <;> decide +kernel

/-- **C51 (SDPA), negation: the direction.** The problem maximises its objective, a program in SDPA format minimises its cost, and the objective is written without a change of
sign: there is a problem with maximum 1 whose exported program has minimum 0. -/
theorem C51_sdpa_direction : ∃ (p : Prob ℚ 2) (txt : Str) (s : Sdpa ℚ), p.Ok ∧ p.Exportable tol8 ∧ writeToSdpa ratFmt tol8 "f.dat-s".toList p = some txt
    ∧ readSdpa sdpaNum txt = some s ∧ p.objective.get 1 = some 0
    ∧ (∀ v, p.Feasible v → lin p.objective v ≤ 1) ∧ (∃ v, p.Feasible v ∧ lin p.objective v = 1)
    ∧ (∀ x, s.Feasible x → 0 ≤ s.value x) ∧ ∃ x, s.Feasible x ∧ s.value x = 0 := by
  have hw : writeToSdpa ratFmt tol8 "f.dat-s".toList maximise = some ((writeToSdpa ratFmt tol8 "f.dat-s".toList maximise).get (by decide +kernel)) := by simp
  obtain ⟨s, c, hs, hc, h1, h2⟩ := C51_sdpa_partial rat_prints tol8 "f.dat-s".toList (by decide) maximise maximise_ok maximise_exportable _ hw
  have hc0 : c = 0 := by
    have : maximise.objective.get 1 = some 0 := by decide +kernel
    rw [this] at hc
    exact (Option.some.inj hc).symm
  subst hc0
  have hlin : ∀ v, maximise.Feasible v → lin maximise.objective v = v 2 := by
    intro v hv
    simp [lin, maximise]
  have hle : ∀ v, maximise.Feasible v → 0 ≤ v 2 ∧ v 2 ≤ 1 := by
    intro v hv
    have h := hv.psd.nonneg fun i => if i = 1 then 1 else 0
    have h' := hv.psd.nonneg fun i => if i = 1 then 1 else -1
    simp [quad, Fin.sum_univ_two, maximise, rows2] at h
    simp [quad, Fin.sum_univ_two, maximise, rows2, hv.one] at h'
    exact ⟨h, by linarith⟩
  have hfeas : ∀ q : ℚ, q = 0 ∨ q = 1 → maximise.Feasible fun k => if k = 0 then 0 else if k = 1 then 1 else q := by
    intro q hq
    refine ⟨rfl, rfl, by simp [maximise], by simp [maximise], ?_, by simp [maximise], by simp [maximise], by simp [maximise], by simp [maximise]⟩
    refine ⟨fun i j => by rw [maximise_ok.symm i j], fun v => ?_⟩
    simp only [quad, Fin.sum_univ_two]
    simp [maximise, rows2]
    rcases hq with rfl | rfl
    · have : v 0 ^ 2 = v 0 * v 0 + v 0 * 0 * v 1 + (v 1 * 0 * v 0 + v 1 * 0 * v 1) := by ring
      rw [← this]; positivity
    · have : (v 0 + v 1) ^ 2 = v 0 * v 0 + v 0 * 1 * v 1 + (v 1 * 1 * v 0 + v 1 * 1 * v 1) := by ring
      rw [← this]; positivity
  refine ⟨maximise, _, s, maximise_ok, maximise_exportable, hw, hs, hc, ?_, ?_, ?_, ?_⟩
  · intro v hv
    rw [hlin v hv]
    exact (hle v hv).2
  · exact ⟨_, hfeas 1 (Or.inr rfl), by rw [hlin _ (hfeas 1 (Or.inr rfl))]; rfl⟩
  · intro x hx
    obtain ⟨v, hv, e⟩ := h1 x hx
    rw [e, hlin v hv, sub_zero]
    exact (hle v hv).1
  · obtain ⟨x, hx, e⟩ := h2 _ (hfeas 0 (Or.inl rfl))
    exact ⟨x, hx, by rw [e, hlin _ (hfeas 0 (Or.inl rfl))]; simp⟩

/-- A problem without solution: a semi-known moment must be at least 1/2, but its target has the value 0 by an equality. -/
def semiBound : Prob ℚ 2 where
  mm := rows2 1 2 2 3
  known := [(1, 1)]
  semi := [(2, (1, 3))]
  objective := [(1, 0)]
  upper := []
  lower := [(2, 1/2), (3, 0)]
  eqs := [[(3, 1)]]
  ineqs := []

/-- **C51 (SDPA), negation: bounds on semi-known moments.** They are not written: there is a problem without solution whose exported program is feasible. -/
theorem C51_sdpa_semiknown_bound_lost : ∃ (p : Prob ℚ 2) (txt : Str) (s : Sdpa ℚ), p.Ok ∧ writeToSdpa ratFmt tol8 "f.dat-s".toList p = some txt
    ∧ readSdpa sdpaNum txt = some s ∧ (∀ v, ¬ p.Feasible v) ∧ ∃ x, s.Feasible x := by
  refine ⟨semiBound, (writeToSdpa ratFmt tol8 "f.dat-s".toList semiBound).get (by decide +kernel),
    ⟨1, [2, -1, -2], [0], [(0, 1, 1, 1, -1), (1, 1, 1, 2, 1), (1, 1, 2, 2, 1), (1, 2, 1, 1, 1), (1, 3, 1, 1, 1), (1, 3, 2, 2, -1)]⟩,
    by constructor <;> decide +kernel, by simp, by decide +kernel, ?_, fun _ => 0, ?_⟩
  · intro v hv
    have h1 := hv.lower (2, 1/2) (by simp [semiBound])
    have h2 := hv.eqs [(3, 1)] (by simp [semiBound])
    have h3 := hv.semi (2, (1, 3)) (by simp [semiBound])
    simp [lin] at h1 h2 h3
    rw [h3, h2] at h1
    norm_num at h1
  · intro k z hz
    rcases k with _ | _ | _ | k
    · simp only [List.getElem?_cons_zero, Option.some.injEq] at hz
      subst hz
      rw [if_pos (by omega)]
      refine ⟨by decide +kernel, fun v => ?_⟩
      have e : (fun i j : Fin (2 : Int).toNat => Sdpa.at ⟨1, [2, -1, -2], [0], [(0, 1, 1, 1, -1), (1, 1, 1, 2, 1), (1, 1, 2, 2, 1), (1, 2, 1, 1, 1), (1, 3, 1, 1, 1), (1, 3, 2, 2, -1)]⟩
          (fun _ => (0 : ℚ)) (0 + 1) (i.val + 1) (j.val + 1)) = fun i j : Fin 2 => if i = 0 ∧ j = 0 then (1 : ℚ) else 0 := by
        funext i j
        revert i j
        decide +kernel
      rw [e]
      change Fin 2 → ℚ at v
      have : quad (fun i j : Fin 2 => if i = 0 ∧ j = 0 then (1 : ℚ) else 0) v = v 0 * v 0 := by
        simp [quad, Fin.sum_univ_two]
      refine le_of_le_of_eq ?_ this.symm
      exact mul_self_nonneg _
    · simp only [List.getElem?_cons_succ, List.getElem?_cons_zero, Option.some.injEq] at hz
      subst hz
      rw [if_neg (by omega)]
      intro i hi
      have hi' : i = 0 := by
        have : i < 1 := hi
        omega
      subst hi'
      decide +kernel
    · simp only [List.getElem?_cons_succ, List.getElem?_cons_zero, Option.some.injEq] at hz
      subst hz
      rw [if_neg (by omega)]
      intro i hi
      have hi' : i = 0 ∨ i = 1 := by
        have : i < 2 := hi
        omega
      rcases hi' with rfl | rfl <;> decide +kernel
    · simp at hz

end Verif.SdpWriter

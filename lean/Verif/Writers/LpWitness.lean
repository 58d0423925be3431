import Verif.Writers.LpProps
import Mathlib.Data.Rat.Floor
import Mathlib.Tactic.NormNum
/-
Concrete instances for C39: a faithful number format exists, the theorems' hypotheses hold for a non-trivial problem, and a contradictory problem is exported as one without rows.
-/
namespace Verif.Writers

open Verif.Text Verif.State

/-- Exact fractions as text. -/
def ratFmt (q : ℚ) : Str := (if q < 0 then ['-'] else []) ++ (natStr q.num.natAbs ++ '/' :: natStr q.den)

/-- Read `a/b`. -/
def readFrac (s : Str) : Option ℚ :=
  match splitAt '/' s with
  | [a, b] => (readNat a).bind fun a => (readNat b).map fun b => (a : ℚ) / (b : ℚ)
  | _ => none

def ratNum : Str → Option ℚ
  | '-' :: s => (readFrac s).map fun q => -q
  | s => readFrac s

theorem readFrac_eq (n d : Nat) : readFrac (natStr n ++ '/' :: natStr d) = some ((n : ℚ) / (d : ℚ)) := by
  unfold readFrac
  rw [splitAt_append _ _ _ (not_mem_natStr n _ (by decide)), splitAt_noSep _ _ (not_mem_natStr d _ (by decide))]
  simp [readNat_natStr]

theorem ratFmt_faithful : Faithful ratFmt ratNum where
  read := by
    intro q
    unfold ratFmt
    by_cases h : q < 0
    · rw [if_pos h]
      simp only [List.cons_append, List.nil_append, ratNum, readFrac_eq, Option.map_some, Option.some.injEq]
      have hn : q.num < 0 := by simpa using h
      have : ((q.num.natAbs : ℕ) : ℚ) = -(q.num : ℚ) := by
        rw [← Int.cast_natCast, show ((q.num.natAbs : ℕ) : ℤ) = -q.num by omega, Int.cast_neg]
      rw [this, neg_div, neg_neg, Rat.num_div_den]
    · rw [if_neg h]
      have hn : 0 ≤ q.num := by simpa using not_lt.1 h
      have e : ratNum ([] ++ (natStr q.num.natAbs ++ '/' :: natStr q.den)) = readFrac (natStr q.num.natAbs ++ '/' :: natStr q.den) := by
        rcases hs : natStr q.num.natAbs with _ | ⟨c, s⟩
        · exact absurd hs (natStr_ne_nil _)
        · have hc : c ≠ '-' := by
            rintro rfl
            exact not_mem_natStr q.num.natAbs '-' (by decide) (by simp [hs])
          simp only [List.nil_append, List.cons_append, ratNum]
          split
          · rename_i s' heq
            simp only [List.cons.injEq] at heq
            exact absurd heq.1 hc
          · rfl
      rw [e, readFrac_eq]
      have : ((q.num.natAbs : ℕ) : ℚ) = (q.num : ℚ) := by
        rw [← Int.cast_natCast, show ((q.num.natAbs : ℕ) : ℤ) = q.num by omega]
      rw [this, Rat.num_div_den]
  noSpace := by
    intro q
    unfold ratFmt
    have h1 := not_mem_natStr q.num.natAbs ' ' (by decide)
    have h2 := not_mem_natStr q.den ' ' (by decide)
    split <;> simp [h1, h2]
  noNewline := by
    intro q
    unfold ratFmt
    have h1 := not_mem_natStr q.num.natAbs '\n' (by decide)
    have h2 := not_mem_natStr q.den '\n' (by decide)
    split <;> simp [h1, h2]

example : ratFmt (-7/20 : ℚ) = "-7/20".toList := by decide +kernel

/-- A problem with an unknown and a known variable, an equality, a proportionality, an inequality and bounds. -/
def demo : WArgs (Fin 4) ℚ where
  vars := [0, 1, 2, 3]
  equalities := [[(0, 1), (1, -2), (3, 1/2)]]
  semiknown := [(2, (1/3, 1))]
  inequalities := [[(1, 1), (3, -1)], [(3, 1)]]
  known := [(3, 1)]
  objective := [(0, 1), (3, 5)]
  lower := [(0, 0)]
  upper := [(1, 1)]

theorem demo_wf : WellFormed demo where
  eqs := by decide
  ineqs := by decide
  known := by decide
  objective := by decide
  lower := by decide
  upper := by decide
  semi := by decide

/-- The processed form of the demonstration problem. -/
def demoP : Processed ℚ := (processArguments demo).get (by decide +kernel)

theorem demo_processed : processArguments demo = some demoP := by simp [demoP]

/-- The exported text, exactly. -/
example : writeToLp ratFmt id "f.lp".toList demoP
    = "\\ File: f.lp\nmaximize\nobj: 1/1 x0 + 5/1\nsubject to\nc0: 1/1 x0 + -2/1 x1 = -1/2\nc1: 1/1 x2 + -1/3 x1 = 0/1\nc2: 1/1 x1 >= 1/1\nbounds\n0/1 <= x0x1 <= 1/1end".toList := by
  decide +kernel

/-- The hypotheses of `C39_rows_partial` are met by the demonstration problem. -/
example := C39_rows_partial ratFmt_faithful id (fun l => List.Perm.refl l) "f.lp".toList (by decide) demo demo_wf demoP demo_processed

/-- And an assignment with the known values exists. -/
example : MeetsKnown demo (fun x => (x : ℚ) / 3) ∧ Agrees demo (fun x => ((x : Fin 4) : ℚ) / 3) (fun i => (i : ℚ) / 3) := by
  constructor
  · intro t ht
    simp only [demo, List.mem_singleton] at ht
    subst ht
    norm_num
  · intro x i h
    have : ∀ x i, Dict.get (varIdx demo.vars) x = some i → i = x.val := by
      intro x
      have h : Dict.get (varIdx demo.vars) x = some x.val := by
        revert x; decide
      intro i hi
      rw [h] at hi
      exact (Option.some.inj hi).symm
    rw [this x i h]

/-- Its bounds are unreadable. -/
example : ¬ BoundsOnOwnLines (writeToLp ratFmt id "f.lp".toList demoP) 2 := by
  intro h
  have e : demoP.lower.length + demoP.upper.length = 2 := by decide +kernel
  have := (C39_bounds_iff ratFmt_faithful id "f.lp".toList (by decide) demoP).1 (by rw [e]; exact h)
  revert this
  decide +kernel

/-- A problem whose only constraint is the contradiction `x = 0` for a variable with known value 1. -/
def contradictory : WArgs (Fin 1) ℚ where
  vars := [0]
  equalities := [[(0, 1)]]
  semiknown := []
  inequalities := []
  known := [(0, 1)]
  objective := [(0, 7)]
  lower := []
  upper := []

/-- **C39, negation.** There is a problem that no assignment satisfies, and whose exported file has no row at all: every assignment of the file's variables is feasible. The objective, with value 7, is exported as zero. -/
theorem C39_violated_constraint_dropped : ∃ (a : WArgs (Fin 1) ℚ) (p : Processed ℚ), WellFormed a ∧ processArguments a = some p
    ∧ (∀ w, MeetsKnown a w → ¬ MeetsConstraints (fun _ => True) a w ∧ lin a.objective w = 7)
    ∧ ∀ (ord : List Nat → List Nat), (∀ l, (ord l).Perm l) →
      readRows ratNum (writeToLp ratFmt ord "f.lp".toList p) = some [] ∧ readObjective ratNum (writeToLp ratFmt ord "f.lp".toList p) = some ([], 0) := by
  have hwf : WellFormed contradictory := by constructor <;> decide
  have hp : processArguments contradictory = some ⟨[0], [[(0, 1)]], [], [(0, 1)], [(0, 7)], [], []⟩ := by decide +kernel
  refine ⟨contradictory, ⟨[0], [[(0, 1)]], [], [(0, 1)], [(0, 7)], [], []⟩, hwf, hp, ?_, ?_⟩
  · intro w hw
    have h0 : w 0 = 1 := hw (0, 1) (by simp [contradictory])
    constructor
    · rintro ⟨h, -⟩
      have := h [(0, 1)] (by simp [contradictory]) trivial
      simp [lin, h0] at this
    · simp [lin, contradictory, h0]
  · intro ord hord
    constructor
    · rw [readRows_file ratFmt_faithful ord "f.lp".toList (by decide)]
      have h : unknownPart ord ([(0, 1)] : Dict Nat ℚ) ([(0, 1)] : Dict Nat ℚ) = [] := by
        rw [unknownPart_eq_nil ord hord]
        simp
      simp [tagged, h]
    · apply C39_constant_objective_dropped ratFmt_faithful ord hord "f.lp".toList (by decide) contradictory hwf _ hp
      rintro ⟨x, hx, hn⟩
      apply hn
      simpa [contradictory, Dict.keys] using hx

end Verif.Writers

import Verif.Names.Legacy
/-
C40, a problem that meets the hypotheses: party `A` with two settings, party `B` with one private setting and `A` as a parent, one source with two copies.
-/
namespace Verif.Names
open Verif.Scenario Verif.Text Verif.State

def exS : Scenario := ⟨2, 1, fun _ => 2, fun _ => 2, fun _ _ => true, fun _ => 2⟩
def exN : Naming := ⟨["A".toList, "B".toList], fun p => if p = 0 then 2 else 1, fun p => if p = 1 then [0] else []⟩

theorem exFits : Fits exS exN where
  len := rfl
  nodup := by decide
  settings := by
    intro p hp
    have : p = 0 ∨ p = 1 := by have : p < 2 := hp; omega
    rcases this with rfl | rfl <;> rfl

example : Avoid exN ['_', '^', '=', '∅', ' ', '<', '[', '(', '&'] := by decide
example : anyInflation exS = true := by decide
theorem exParents : ∀ p < exS.nParties, (∀ q ∈ exN.parents p, q < exS.nParties) ∧ (exN.parents p).Nodup := by
  intro p hp
  have : p = 0 ∨ p = 1 := by have : p < 2 := hp; omega
  rcases this with rfl | rfl <;> decide

theorem exLex : exS.lexorder[5]? = some ⟨1, [2], 0, 1⟩ ∧ exS.lexorder[13]? = some ⟨2, [2], 0, 1⟩ ∧ exS.lexorder.length = 16 := by decide +kernel

/-- The names that are printed. -/
example : displayName exS exN ⟨1, [2], 0, 1⟩ = some "A_0^{2}_2=1".toList := by decide +kernel
example : displayName exS exN ⟨2, [2], 0, 1⟩ = some "B^{2}_2=1|do(A=0)".toList := by decide +kernel
example : copyFreeName exS exN ⟨2, [2], 0, 1⟩ = some "B=1|do(A=0)".toList := by decide +kernel
example : legacyName exS exN ⟨2, [2], 0, 1⟩ = some "B_2_0_1".toList := by decide +kernel
example : toName exN.names [⟨1, [2], 0, 1⟩, ⟨2, [2], 0, 1⟩] = "A_2_0_1*B_2_0_1".toList := by decide +kernel

/-- Reading back, through the theorem. -/
example : (∃ d, opFromName exS exN = some d ∧ interpretAtomic d toKill "<A_0^{2}_2=1 B^{2}_2=1|do(A=0)>".toList = some [5, 13]) :=
  (C40_bracket_name_reads_back exFits (by decide) (fun p hp => (exParents p hp).1) toKill (fun _ => Iff.rfl) [5, 13]
    ["A_0^{2}_2=1".toList, "B^{2}_2=1|do(A=0)".toList] (by simp)
    (.cons ⟨_, exLex.1, by decide +kernel⟩ (.cons ⟨_, exLex.2.1, by decide +kernel⟩ .nil))).1

/-- The same moment in the form in which it is printed when the operators commute is not read. -/
example (d : Dict Str Nat) : interpretAtomic d toKill "P[A_0^{2}_2=1 B^{2}_2=1|do(A=0)]".toList = none :=
  C40_probability_form_rejected d toKill "A_0^{2}_2=1".toList "B^{2}_2=1|do(A=0)".toList []

/-- A do-conditional moment: the do-value of `B` is displayed only if it differs from the outcome of `A`. -/
example : momentName exS exN true true [⟨1, [1], 0, 1⟩, ⟨2, [1], 0, 1⟩] = some "P[A_0=1 B=1|do(A=0)]".toList := by decide +kernel
example : momentName exS exN true true [⟨1, [1], 0, 1⟩, ⟨2, [1], 1, 1⟩] = some "P[A_0=1 B=1]".toList := by decide +kernel
example : momentName exS exN false true [⟨1, [1], 0, 1⟩, ⟨2, [2], 1, 1⟩] = some "P[A_0^{1}_1=1 B^{2}_2=1|do(A=1)]".toList := by decide +kernel

theorem exValid1 : Valid exS ⟨1, [2], 0, 1⟩ := (mem_lexorder exS).1 (List.mem_of_getElem? exLex.1)
theorem exValid2 : Valid exS ⟨2, [2], 0, 1⟩ := (mem_lexorder exS).1 (List.mem_of_getElem? exLex.2.1)

/-- The hypotheses of `C40_moment_names`, for two moments. -/
example (f com : Bool) (v : List Op) (hv : ∀ a ∈ v, Valid exS a) (hne : v ≠ [])
    (h : momentName exS exN f com [⟨1, [2], 0, 1⟩, ⟨2, [2], 0, 1⟩] = momentName exS exN false com v) : v.map (·.outcome) = [1, 1] := by
  have := (C40_moment_names exFits (by decide) (fun p hp => (exParents p hp).1) (fun p hp => (exParents p hp).2) [⟨1, [2], 0, 1⟩, ⟨2, [2], 0, 1⟩] v
    (by
      intro a ha
      simp only [List.mem_cons, List.not_mem_nil, or_false] at ha
      rcases ha with rfl | rfl
      · exact exValid1
      · exact exValid2) hv (by simp) hne f false com com h).2.2.1
  have h2 := congrArg (List.map fun t : Nat × Nat × Nat => t.2.2) this
  simpa [List.map_map, Function.comp_def] using h2.symm

/-- Atom names as displayed, in products with powers. -/
theorem exLike : AtomLike "P[A_0=1 B=1]".toList ∧ AtomLike "P[A_0=0]".toList :=
  ⟨⟨by decide, ']', "P[A_0=1 B=1".toList, by decide, not_digit (by simp)⟩, ⟨by decide, ']', "P[A_0=0".toList, by decide, not_digit (by simp)⟩⟩
example : Moment.joinChars ["P[A_0=0]".toList, "P[A_0=1 B=1]".toList, "P[A_0=0]".toList] = "P[A_0=0]^2*P[A_0=1 B=1]".toList := by decide +kernel
/-- The hypothesis is needed: names ending in a power collide. -/
example : Moment.joinChars ["a".toList, "a".toList] = Moment.joinChars ["a^2".toList] := by decide +kernel

/-- Single-character names, as in the partial theorem on legacy names. -/
example : (∀ n ∈ exN.names, ∃ c, n = [c] ∧ c ≠ '(') ∧ rawName exN.names [(1, 0, 1), (2, 0, 1)] = "pAB(11|00)".toList := by
  refine ⟨?_, by decide +kernel⟩
  intro n hn
  simp only [exN, List.mem_cons, List.not_mem_nil, or_false] at hn
  rcases hn with rfl | rfl
  · exact ⟨'A', by decide, by decide⟩
  · exact ⟨'B', by decide, by decide⟩

/-- A name that contains a separator can collide: parties `A` and `A_0` with two settings and trivial settings. -/
example : ∃ (S : Scenario) (N : Naming) (a b : Op), Fits S N ∧ Valid S a ∧ Valid S b ∧ a ≠ b ∧ displayName S N a = displayName S N b := by
  refine ⟨⟨2, 0, fun _ => 2, fun p => if p = 0 then 2 else 1, fun _ _ => true, fun _ => 1⟩,
    ⟨["A".toList, "A_0".toList], fun p => if p = 0 then 2 else 1, fun _ => []⟩, ⟨1, [], 0, 0⟩, ⟨2, [], 0, 0⟩, ⟨rfl, by decide, ?_⟩, ?_, ?_, by decide, by decide +kernel⟩
  · intro p hp
    have : p = 0 ∨ p = 1 := by have : p < 2 := hp; omega
    rcases this with rfl | rfl <;> rfl
  · exact ⟨by decide, by decide, rfl, by simp, by decide, by decide⟩
  · exact ⟨by decide, by decide, rfl, by simp, by decide, by decide⟩

end Verif.Names

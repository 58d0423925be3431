import Verif.SdpWriter.Readable
/-
Concrete cases for the MATLAB and the human-readable export (C51), and the cases in which the human-readable file says something else than the program.
-/
namespace Verif.SdpWriter
open Verif.Text Verif.State Verif.SdpSolver Verif.Common

theorem demo_constants : demo.Constants := by constructor <;> decide +kernel

/-- The theorems on the MATLAB file apply to a program with known, semi-known and unknown moments, bounds, an equality and an inequality. -/
example (x : Nat → ℚ) := C51_mat_constraints tol8 demo demo_ok demo_constants [] x
example (x : Nat → ℚ) := C51_mat_objective tol8 (by decide +kernel) demo [] x (by decide +kernel)
example := C51_mat_indices tol8 demo [(1, "1".toList), (2, "a".toList)] (by decide +kernel)

/-- A program with a zero in its moment matrix: the indices are shifted by 1. -/
def zeros : Prob ℚ 2 := ⟨rows2 1 0 0 2, [(1, 1), (0, 0)], [], [(2, 1)], [], [(2, 0)], [], []⟩

theorem zeros_ok : zeros.Ok := by constructor <;> decide +kernel

example : (matFile tol8 zeros []).known = [(2, 1), (1, 0)] ∧ (matFile tol8 zeros []).momentmatrix 1 1 = 3 ∧ (matFile tol8 zeros []).objective = [(3, 1)] := by decide +kernel
example (x : Nat → ℚ) := C51_mat_constraints tol8 zeros zeros_ok (by constructor <;> decide +kernel) [] x
example := C51_mat_indices tol8 zeros [(0, "0".toList)] (by decide +kernel)

/-- `np.isclose(·, 1)`: relative tolerance 1e-5, absolute tolerance 1e-8. -/
def isClose (a : ℚ) : Bool := decide (|a - 1| ≤ 1 / 100000000 + 1 / 100000)

/-- Names of one character. -/
def letter (k : Nat) : Str := [Char.ofNat (48 + k)]

/-- Any order of the names. -/
def anyLe (a b : Str) : Bool := decide (a.length ≤ b.length)

/-- Values of the names from values of the moments. -/
def valued (l : List ℚ) : Str → ℚ
  | c :: _ => if 48 ≤ c.toNat then l.getD (c.toNat - 48) 0 else 0
  | [] => 0

theorem valued_semicolons (l : List ℚ) (hl : l.length ≤ 11) (s : Str) : valued l (semicolons s) = valued l s := by
  match s with
  | [] => rfl
  | [c] =>
    unfold semicolons
    simp [semicolons]
  | c :: d :: s =>
    unfold semicolons
    split
    · rename_i s' e
      obtain ⟨rfl, -⟩ := List.cons.inj e
      have h1 : ';'.toNat = 59 := by decide
      have h2 : ','.toNat = 44 := by decide
      have h3 : l[11]? = none := List.getElem?_eq_none (by omega)
      simp [valued, h1, h2, h3]
    · rename_i c' s' hne e
      obtain ⟨rfl, rfl⟩ := List.cons.inj e
      rfl
    · rename_i e
      cases e

/-- Values of the moments of the program above. -/
def demoValues : Str → ℚ := valued [0, 1, 1/2, 1/2, 1/4, 1/2]

theorem demo_understood : demo.Understood letter demoValues where
  spelling := valued_semicolons _ (by decide)
  zero := by decide +kernel
  one := by decide +kernel
  known := by decide +kernel
  semi := by decide +kernel

theorem demo_readable : demo.Readable tol8 isClose [1, 2, 3, 4, 5] where
  listed := by decide +kernel
  known := by decide +kernel
  coefficients := by decide +kernel
  constant := by decide +kernel

/-- The human-readable file of this program. -/
theorem demo_human : ∃ f, readable tol8 isClose anyLe letter [1, 2, 3, 4, 5] demo = some f := by
  rcases h : readable tol8 isClose anyLe letter [1, 2, 3, 4, 5] demo with _ | f
  · exact absurd ((C51_readable_written _ _ _ _ _ _).1 h) (by decide +kernel)
  · exact ⟨f, rfl⟩

/-- Its table and its objective. -/
example : table letter [1, 2, 3, 4, 5] demo 0 0 = .name "1".toList ∧ table letter [1, 2, 3, 4, 5] demo 0 1 = .num (1/2) ∧ table letter [1, 2, 3, 4, 5] demo 1 2 = .times (1/2) "3".toList ∧
    table letter [1, 2, 3, 4, 5] demo 2 0 = .num 0 := by decide +kernel
example : objectiveTerms tol8 letter demo = [.const 2, .times 1 "3".toList, .times (-1) "5".toList] := by decide +kernel
example : demo.eqs.map (constraintTerms isClose letter) = [some [.times 1 "3".toList, .times 1 "5".toList, .const (-1)]] := by decide +kernel

example : ∃ f, readable tol8 isClose anyLe letter [1, 2, 3, 4, 5] demo = some f ∧ (f.Feasible demoValues ↔ demo.Feasible fun k => demoValues (letter k)) :=
  let ⟨f, h⟩ := demo_human
  ⟨f, h, C51_readable_partial _ _ _ _ _ _ demo_ok demo_readable _ demo_understood f h⟩

example : ∃ f, readable tol8 isClose anyLe letter [1, 2, 3, 4, 5] demo = some f ∧ sumTerms demoValues f.objective = lin demo.objective fun k => demoValues (letter k) :=
  let ⟨f, h⟩ := demo_human
  ⟨f, h, C51_readable_objective _ _ _ _ _ _ demo_ok demo_readable.constant _ demo_understood.one f h⟩

/-- A program with a moment of value 2, and another moment of index 2. -/
def valueTwo : Prob ℚ 2 := ⟨rows2 1 2 2 3, [(1, 1), (3, 2)], [], [], [], [], [], []⟩

/-- **C51, human-readable, negation: values that are indices.** In the table a known value 2 is replaced by the name of the moment with index 2, so that the file excludes
values that the program allows. -/
theorem C51_false_readable_value : ∃ (p : Prob ℚ 2) (moments : List Nat) (x : Str → ℚ) (f : Human ℚ 2), p.Ok ∧ p.Understood letter x ∧ (∀ i j, p.mm i j ∈ moments) ∧
    readable tol8 isClose anyLe letter moments p = some f ∧ (p.Feasible fun k => x (letter k)) ∧ ¬ f.Feasible x := by
  refine ⟨valueTwo, [1, 2, 3], valued [0, 1, 5/4, 2], ⟨[], table letter [1, 2, 3] valueTwo, [], [], []⟩, by constructor <;> decide +kernel,
    ⟨valued_semicolons _ (by decide), by decide +kernel, by decide +kernel, by decide +kernel, by decide +kernel⟩, by decide +kernel, rfl, ?_, ?_⟩
  · refine ⟨by decide +kernel, by decide +kernel, by decide +kernel, by decide +kernel, ⟨by decide +kernel, fun v => ?_⟩, by decide +kernel, by decide +kernel, by decide +kernel, by decide +kernel⟩
    have h0 : valued [0, 1, 5/4, 2] (letter 1) = 1 := by decide +kernel
    have h1 : valued [0, 1, 5/4, 2] (letter 2) = 5/4 := by decide +kernel
    have h2 : valued [0, 1, 5/4, 2] (letter 3) = 2 := by decide +kernel
    simp only [quad, Fin.sum_univ_two]
    simp [valueTwo, rows2, h0, h1, h2]
    nlinarith [sq_nonneg (v 0 + 5/4 * v 1), sq_nonneg (v 1)]
  · intro h
    obtain ⟨m, hm, e⟩ := h.psd
    have e00 := (e 0 0 (by decide)).1
    have e01 := (e 0 1 (by decide)).1
    have e11 := (e 1 1 (by decide)).1
    have e10 := (e 0 1 (by decide)).2
    have t00 : (table letter [1, 2, 3] valueTwo 0 0).value (valued [0, 1, 5/4, 2]) = some 1 := by decide +kernel
    have t01 : (table letter [1, 2, 3] valueTwo 0 1).value (valued [0, 1, 5/4, 2]) = some (5/4) := by decide +kernel
    have t11 : (table letter [1, 2, 3] valueTwo 1 1).value (valued [0, 1, 5/4, 2]) = some (5/4) := by decide +kernel
    have m00 : m 0 0 = 1 := (Option.some.inj (t00.symm.trans e00)).symm
    have m01 : m 0 1 = 5/4 := (Option.some.inj (t01.symm.trans e01)).symm
    have m11 : m 1 1 = 5/4 := (Option.some.inj (t11.symm.trans e11)).symm
    have hq := hm.nonneg fun i => if i = 0 then -(5/4) else 1
    simp [quad, Fin.sum_univ_two, m00, m01, m11, e10] at hq
    norm_num at hq

/-- A program with a coefficient close to 1. -/
def almostOne : Prob ℚ 1 := ⟨fun _ _ => 1, [(1, 1)], [], [], [], [], [[(2, 1 + 1/1000000), (1, -1)]], []⟩

/-- **C51, human-readable, negation: rounded coefficients.** A coefficient 1.000001 of a constraint is not written, so that the file allows values that the program excludes. -/
theorem C51_false_readable_coefficient : ∃ (p : Prob ℚ 1) (moments : List Nat) (x : Str → ℚ) (f : Human ℚ 1), p.Ok ∧ p.Understood letter x ∧ (∀ i j, p.mm i j ∈ moments) ∧
    readable tol8 isClose anyLe letter moments p = some f ∧ f.Feasible x ∧ ¬ p.Feasible fun k => x (letter k) := by
  have hq : (constraintTerms isClose letter [(2, (1 + 1/1000000 : ℚ)), (1, -1)]) = some [.times 1 (letter 2), .const (-1)] := by decide +kernel
  refine ⟨almostOne, [1, 2], valued [0, 1, 1], ⟨[], table letter [1, 2] almostOne, [], [[.times 1 (letter 2), .const (-1)]], []⟩, by constructor <;> decide +kernel,
    ⟨valued_semicolons _ (by decide), by decide +kernel, by decide +kernel, by decide +kernel, by decide +kernel⟩, by decide +kernel, ?_, ?_, ?_⟩
  · unfold readable almostOne
    simp only [List.mapM_cons, List.mapM_nil, hq, Option.pure_def, Option.bind_eq_bind, Option.bind_some]
    rfl
  · refine ⟨⟨fun _ _ => 1, ⟨fun _ _ => rfl, fun v => ?_⟩, by decide +kernel⟩, by decide +kernel, by decide +kernel, by decide +kernel, by decide +kernel⟩
    simp only [quad, Fin.sum_univ_one, mul_one]
    exact mul_self_nonneg _
  · intro h
    exact absurd (h.eqs [(2, 1 + 1/1000000), (1, -1)] (by decide +kernel)) (by decide +kernel)

end Verif.SdpWriter

import Verif.Writers.MpsProps
import Verif.Writers.LpWitness
import Verif.Certificates.Clean
/-
Concrete instances for C39 on MPS files: rounding to four decimals, a problem meeting the hypotheses, and the two ways the exported problem differs.
-/
namespace Verif.Writers

open Verif.Text Verif.State

/-- Rounding to four decimals, as `{:.4f}` does. -/
def rd4 (q : ℚ) : ℚ := Certificates.roundDec 4 q

/-- A printed rounded number. -/
def fmt4' (q : ℚ) : Str := ratFmt (rd4 q)

theorem fmt4_rounds : Rounds fmt4' ratNum rd4 where
  read := fun q => ratFmt_faithful.read (rd4 q)
  noSpace := fun q => ratFmt_faithful.noSpace (rd4 q)
  noNewline := fun q => ratFmt_faithful.noNewline (rd4 q)
  ne_nil := fun q h => by
    have := ratFmt_faithful.read (rd4 q)
    unfold fmt4' at h
    rw [h, show ratNum [] = none by decide] at this
    simp at this

/-- A problem with four-decimal data. -/
def demo4 : WArgs (Fin 4) ℚ where
  vars := [0, 1, 2, 3]
  equalities := [[(0, 1), (1, -2), (3, 1/2)]]
  semiknown := [(2, (1/4, 1))]
  inequalities := [[(1, 1), (3, -1)], [(3, 1)]]
  known := [(3, 1)]
  objective := [(0, 1), (3, 5)]
  lower := [(0, 0)]
  upper := [(1, 1)]

theorem demo4_wf : WellFormed demo4 := by constructor <;> decide

theorem demo4_representable : Representable rd4 demo4 := by
  constructor <;> decide +kernel

def demo4P : Processed ℚ := (processArguments demo4).get (by decide +kernel)

theorem demo4_processed : processArguments demo4 = some demo4P := by simp [demo4P]

/-- The hypotheses of `C39_mps_partial` are met. -/
example := C39_mps_partial fmt4_rounds id (fun l => List.Perm.refl l) "dir/f.mps".toList (by decide) demo4 demo4_wf demo4_representable
  (by decide) demo4P demo4_processed

/-- A problem with the solution `x = 100000`, from the row `0.00001 x = 1`. -/
def tiny : WArgs (Fin 2) ℚ where
  vars := [0, 1]
  equalities := [[(0, 1/100000), (1, -1)]]
  semiknown := []
  inequalities := []
  known := [(1, 1)]
  objective := []
  lower := []
  upper := []

/-- **C39 (MPS), negation.** Four decimals are not enough: there is a satisfiable problem whose exported file has the row `0 x = 1`, which no assignment satisfies. -/
theorem C39_mps_rounding_changes_problem : ∃ (a : WArgs (Fin 2) ℚ) (p : Processed ℚ) (m : Mps ℚ), WellFormed a ∧ processArguments a = some p
    ∧ readMps ratNum (writeToMps fmt4' id "f.mps".toList p) = some m
    ∧ (∃ w, MeetsKnown a w ∧ MeetsConstraints (fun _ => True) a w ∧ MeetsBounds a w ∧ ∀ x, 0 ≤ w x)
    ∧ ∀ v, ¬ m.rowsHold v := by
  refine ⟨tiny, ⟨[0, 1], [[(0, 1/100000), (1, -1)]], [], [(1, 1)], [], [], []⟩, ⟨[(true, 0)], [(0, some 0, 0)], [(some 0, 1)], []⟩,
    by constructor <;> decide, by decide +kernel, ?_, ?_, ?_⟩
  · rw [readMps_written fmt4_rounds id "f.mps".toList (by decide)]
    · decide +kernel
    · constructor <;> decide
  · refine ⟨fun x => if x = 0 then 100000 else 1, ?_, ⟨?_, ?_, ?_⟩, ⟨?_, ?_⟩, ?_⟩
    · intro t ht
      simp only [tiny, List.mem_singleton] at ht
      subst ht
      decide +kernel
    · intro d hd _
      simp only [tiny, List.mem_singleton] at hd
      subst hd
      decide +kernel
    · intro t ht; simp [tiny] at ht
    · intro d hd; simp [tiny] at hd
    · intro t ht; simp [tiny] at ht
    · intro t ht; simp [tiny] at ht
    · intro x
      dsimp only
      split <;> norm_num
  · intro v h
    have := h (true, 0) (by simp)
    simp [Mps.value, Mps.rhsOf] at this

/-- A problem whose only solution is negative, and which has no lower bounds. -/
def negative : WArgs (Fin 2) ℚ where
  vars := [0, 1]
  equalities := [[(0, 1), (1, 1)]]
  semiknown := []
  inequalities := []
  known := [(1, 1)]
  objective := []
  lower := []
  upper := []

/-- **C39 (MPS), negation.** Variables without a lower bound are non-negative in an MPS file, and the writer does not say otherwise: a problem (solved without default non-negativity) with the solution `x = -1` is exported as one without solution. -/
theorem C39_mps_negative_excluded : ∃ (a : WArgs (Fin 2) ℚ) (p : Processed ℚ) (m : Mps ℚ), WellFormed a ∧ Representable rd4 a ∧ processArguments a = some p
    ∧ readMps ratNum (writeToMps fmt4' id "f.mps".toList p) = some m
    ∧ (∃ w, MeetsKnown a w ∧ MeetsConstraints (fun _ => True) a w ∧ MeetsBounds a w)
    ∧ ∀ v, ¬ m.feasible v := by
  refine ⟨negative, ⟨[0, 1], [[(0, 1), (1, 1)]], [], [(1, 1)], [], [], []⟩, ⟨[(true, 0)], [(0, some 0, 1)], [(some 0, -1)], []⟩,
    by constructor <;> decide, by constructor <;> decide +kernel, by decide +kernel, ?_, ?_, ?_⟩
  · rw [readMps_written fmt4_rounds id "f.mps".toList (by decide)]
    · decide +kernel
    · constructor <;> decide
  · refine ⟨fun x => if x = 0 then -1 else 1, ?_, ⟨?_, ?_, ?_⟩, ⟨?_, ?_⟩⟩
    · intro t ht
      simp only [negative, List.mem_singleton] at ht
      subst ht
      decide +kernel
    · intro d hd _
      simp only [negative, List.mem_singleton] at hd
      subst hd
      decide +kernel
    · intro t ht; simp [negative] at ht
    · intro d hd; simp [negative] at hd
    · intro t ht; simp [negative] at ht
    · intro t ht; simp [negative] at ht
  · rintro v ⟨h1, -, h3⟩
    have e := h1 (true, 0) (by simp)
    have d := h3 (0, some 0, 1) (by simp) (by simp)
    simp [Mps.value, Mps.rhsOf] at e
    simp at d
    rw [e] at d
    norm_num at d

/-- A problem with a lower bound on a variable whose value is known. -/
def boundedKnown : WArgs (Fin 2) ℚ where
  vars := [0, 1]
  equalities := [[(0, 1), (1, 1)]]
  semiknown := []
  inequalities := []
  known := [(1, 1)]
  objective := []
  lower := [(1, 0)]
  upper := []

/-- **C39 (MPS), negation.** A bound on a known variable is written although the variable has no column: the file refers to an undeclared variable. -/
theorem C39_mps_bound_undeclared : ∃ (a : WArgs (Fin 2) ℚ) (p : Processed ℚ) (m : Mps ℚ), WellFormed a ∧ Representable rd4 a ∧ processArguments a = some p
    ∧ readMps ratNum (writeToMps fmt4' id "f.mps".toList p) = some m ∧ ¬ m.boundsDeclared := by
  refine ⟨boundedKnown, ⟨[0, 1], [[(0, 1), (1, 1)]], [], [(1, 1)], [], [(1, 0)], []⟩, ⟨[(true, 0)], [(0, some 0, 1)], [(some 0, -1)], [(true, 1, 0)]⟩,
    by constructor <;> decide, by constructor <;> decide +kernel, by decide +kernel, ?_, ?_⟩
  · rw [readMps_written fmt4_rounds id "f.mps".toList (by decide)]
    · decide +kernel
    · constructor <;> decide
  · intro h
    obtain ⟨t, ht, he⟩ := h (true, 1, 0) (by simp)
    simp only [List.mem_singleton] at ht
    subst ht
    simp at he

end Verif.Writers

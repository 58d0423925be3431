import Verif.SdpWriter.Witness
/-
The MATLAB export and the human-readable export of a semidefinite program, inflation/sdp/writer_utils.py 14-246 (C51). What is written is modelled as the structures that are
passed to `savemat` and as the lines before they are turned into text: a linear expression is a list of terms, an entry of the table is a number, a multiple of a name, or a name.
-/
namespace Verif.SdpWriter
open Verif.Text Verif.State Verif.Common Verif.SdpSolver

variable {K : Type} {n : Nat} [Field K] [LinearOrder K]

/-! ### The MATLAB file -/

/-- The variables of the file, inflation/sdp/writer_utils.py 233-245. -/
structure Mat (K : Type) (n : Nat) where
  momentmatrix : Fin n → Fin n → Nat
  names : List (Nat × Str)
  objective : List (Nat × K)
  known : List (Nat × K)
  semi : List (Nat × K × Nat)
  lower : List (Nat × K)
  upper : List (Nat × K)
  equalities : List (List (Nat × K))
  inequalities : List (List (Nat × K))

/-- `momentmatrix_has_a_zero`, InflationSDP.py 344-345. -/
def Prob.hasZero (p : Prob K n) : Bool := decide (∃ i j, p.mm i j = 0)

/-- A list of pairs of an index and a value, with the indices shifted. -/
def shifted (offset : Nat) (d : Dict Nat K) : List (Nat × K) := d.map fun t => (t.1 + offset, t.2)

/-- `write_to_mat`, inflation/sdp/writer_utils.py 156-246; `moments` are the indices and names of `problem.moments`. -/
def matFile (tol : K) (p : Prob K n) (moments : List (Nat × Str)) : Mat K n :=
  let offset := if p.hasZero then 1 else 0
  { momentmatrix := fun i j => p.mm i j + offset
    names := moments.map fun t => (t.1 + offset, t.2)
    objective := shifted offset (p.objective.filter fun t => decide (tol < |t.2|))
    known := shifted offset p.known
    semi := p.semi.map fun t => (t.1 + offset, t.2.1, t.2.2 + offset)
    lower := shifted offset p.lower
    upper := shifted offset p.upper
    equalities := p.eqs.map (shifted offset)
    inequalities := p.ineqs.map (shifted offset) }

/-- What the file says about the values of its variables (doc-string, inflation/sdp/writer_utils.py 174-200): known values, proportional moments, bounds, linear constraints, and a positive
semidefinite moment matrix. -/
structure Mat.Feasible (m : Mat K n) (x : Nat → K) : Prop where
  psd : PSD fun i j => x (m.momentmatrix i j)
  known : ∀ t ∈ m.known, x t.1 = t.2
  semi : ∀ t ∈ m.semi, x t.1 = t.2.1 * x t.2.2
  lower : ∀ t ∈ m.lower, t.2 ≤ x t.1
  upper : ∀ t ∈ m.upper, x t.1 ≤ t.2
  equalities : ∀ l ∈ m.equalities, (l.map fun t => t.2 * x t.1).sum = 0
  inequalities : ∀ l ∈ m.inequalities, 0 ≤ (l.map fun t => t.2 * x t.1).sum

/-- The objective of the file. -/
def Mat.value (m : Mat K n) (x : Nat → K) : K := (m.objective.map fun t => t.2 * x t.1).sum

/-- The unit is known, and zero if it occurs in the moment matrix (InflationSDP.py 1974-1977). -/
structure Prob.Constants (p : Prob K n) : Prop where
  one : p.known.get 1 = some 1
  zero : p.hasZero = true → p.known.get 0 = some 0

theorem sum_shifted (offset : Nat) (d : Dict Nat K) (x : Nat → K) : ((shifted offset d).map fun t => t.2 * x t.1).sum = lin d fun k => x (k + offset) := by
  unfold shifted lin
  rw [List.map_map]
  rfl

/-- **C51, MATLAB, constraints**: the file says about the values of its variables what the program says about the moments with these indices. -/
theorem C51_mat_constraints (tol : K) (p : Prob K n) (hp : p.Ok) (hc : p.Constants) (moments : List (Nat × Str)) (x : Nat → K) :
    ∃ offset, (matFile tol p moments).momentmatrix = (fun i j => p.mm i j + offset) ∧ (matFile tol p moments).names = moments.map (fun t => (t.1 + offset, t.2)) ∧
      ((p.hasZero = false → x 0 = 0) → ((matFile tol p moments).Feasible x ↔ p.Feasible fun k => x (k + offset))) := by
  refine ⟨if p.hasZero then 1 else 0, rfl, rfl, fun h0 => ?_⟩
  generalize ho : (if p.hasZero then 1 else 0) = offset
  have e : matFile tol p moments = { momentmatrix := fun i j => p.mm i j + offset, names := moments.map fun t => (t.1 + offset, t.2), objective := shifted offset (p.objective.filter fun t => decide (tol < |t.2|)), known := shifted offset p.known, semi := p.semi.map fun t => (t.1 + offset, t.2.1, t.2.2 + offset), lower := shifted offset p.lower, upper := shifted offset p.upper, equalities := p.eqs.map (shifted offset), inequalities := p.ineqs.map (shifted offset) } := by
    unfold matFile
    simp only [ho]
  rw [e]
  have m1 := (get_of_mem p.known hp.known 1 1).2 hc.one
  constructor
  · intro h
    have hk : ∀ t ∈ p.known, x (t.1 + offset) = t.2 := fun t ht => h.known (t.1 + offset, t.2) (List.mem_map.2 ⟨t, ht, rfl⟩)
    refine ⟨?_, hk _ m1, hk, fun t ht => h.semi (t.1 + offset, t.2.1, t.2.2 + offset) (List.mem_map.2 ⟨t, ht, rfl⟩), h.psd, fun t ht => h.upper (t.1 + offset, t.2) (List.mem_map.2 ⟨t, ht, rfl⟩),
      fun t ht => h.lower (t.1 + offset, t.2) (List.mem_map.2 ⟨t, ht, rfl⟩), fun d hd => ?_, fun d hd => ?_⟩
    · by_cases hz : p.hasZero = true
      · exact hk _ ((get_of_mem p.known hp.known 0 0).2 (hc.zero hz))
      · have : offset = 0 := by rw [← ho, if_neg hz]
        show x (0 + offset) = 0
        rw [this]
        exact h0 (by simpa using hz)
    · rw [← sum_shifted offset d x]
      exact h.equalities _ (List.mem_map.2 ⟨d, hd, rfl⟩)
    · rw [← sum_shifted offset d x]
      exact h.inequalities _ (List.mem_map.2 ⟨d, hd, rfl⟩)
  · intro h
    refine ⟨h.psd, ?_, ?_, ?_, ?_, ?_, ?_⟩
    · intro t ht
      obtain ⟨s, hs, rfl⟩ := List.mem_map.1 ht
      exact h.known s hs
    · intro t ht
      obtain ⟨s, hs, rfl⟩ := List.mem_map.1 ht
      exact h.semi s hs
    · intro t ht
      obtain ⟨s, hs, rfl⟩ := List.mem_map.1 ht
      exact h.lower s hs
    · intro t ht
      obtain ⟨s, hs, rfl⟩ := List.mem_map.1 ht
      exact h.upper s hs
    · intro l hl
      obtain ⟨d, hd, rfl⟩ := List.mem_map.1 hl
      rw [sum_shifted]
      exact h.eqs d hd
    · intro l hl
      obtain ⟨d, hd, rfl⟩ := List.mem_map.1 hl
      rw [sum_shifted]
      exact h.ineqs d hd

/-- **C51, MATLAB, objective**: the objective of the file is that of the program without the coefficients of at most `tol`, so that it is exact if every other coefficient is 0. -/
theorem C51_mat_objective (tol : K) (htol : 0 ≤ tol) (p : Prob K n) (moments : List (Nat × Str)) (x : Nat → K) (h : ∀ t ∈ p.objective, t.2 = 0 ∨ tol < |t.2|) :
    (matFile tol p moments).value x = lin p.objective fun k => x (k + if p.hasZero then 1 else 0) := by
  show ((shifted _ (p.objective.filter fun t => decide (tol < |t.2|))).map fun t => t.2 * x t.1).sum = _
  rw [sum_shifted]
  generalize (if p.hasZero then 1 else 0) = offset
  unfold lin
  revert h
  generalize p.objective = d
  intro h
  induction d with
  | nil => rfl
  | cons t d ih =>
    have ih := ih fun s hs => h s (List.mem_cons_of_mem _ hs)
    by_cases ht : tol < |t.2|
    · rw [List.filter_cons_of_pos (by simpa using ht), List.map_cons, List.sum_cons, List.map_cons, List.sum_cons, ih]
    · rw [List.filter_cons_of_neg (by simpa using ht), List.map_cons, List.sum_cons, ih]
      rcases h t (by simp) with h0 | h0
      · rw [h0]
        simp
      · exact absurd h0 ht

/-- **C51, MATLAB, indices**: all indices of the file are at least 1, as MATLAB requires, if a zero moment is only used when there is one in the moment matrix. -/
theorem C51_mat_indices (tol : K) (p : Prob K n) (moments : List (Nat × Str)) (h : p.hasZero = false → (∀ t ∈ moments, t.1 ≠ 0) ∧ (∀ t ∈ p.known, t.1 ≠ 0) ∧
      (∀ t ∈ p.semi, t.1 ≠ 0 ∧ t.2.2 ≠ 0) ∧ (∀ t ∈ p.objective, t.1 ≠ 0) ∧ ∀ t ∈ p.lower ++ p.upper ++ p.eqs.flatten ++ p.ineqs.flatten, t.1 ≠ 0) :
    (∀ i j, 1 ≤ (matFile tol p moments).momentmatrix i j) ∧ (∀ t ∈ (matFile tol p moments).names, 1 ≤ t.1) ∧ (∀ t ∈ (matFile tol p moments).known, 1 ≤ t.1) ∧
    (∀ t ∈ (matFile tol p moments).semi, 1 ≤ t.1 ∧ 1 ≤ t.2.2) ∧ (∀ t ∈ (matFile tol p moments).objective, 1 ≤ t.1) ∧
    (∀ t ∈ (matFile tol p moments).lower ++ (matFile tol p moments).upper ++ (matFile tol p moments).equalities.flatten ++ (matFile tol p moments).inequalities.flatten, 1 ≤ t.1) := by
  by_cases hz : p.hasZero = true
  · unfold matFile shifted
    simp only [hz, if_true]
    refine ⟨fun i j => by omega, ?_, ?_, ?_, ?_, ?_⟩
    · simp only [List.mem_map]
      rintro t ⟨s, -, rfl⟩
      simp
    · simp only [List.mem_map]
      rintro t ⟨s, -, rfl⟩
      simp
    · simp only [List.mem_map]
      rintro t ⟨s, -, rfl⟩
      simp
    · simp only [List.mem_map]
      rintro t ⟨s, -, rfl⟩
      simp
    · simp only [List.mem_append, List.mem_map, List.mem_flatten]
      rintro t (((⟨s, -, rfl⟩ | ⟨s, -, rfl⟩) | ⟨l, ⟨d, -, rfl⟩, ht⟩) | ⟨l, ⟨d, -, rfl⟩, ht⟩)
      · simp
      · simp
      · obtain ⟨s, -, rfl⟩ := List.mem_map.1 ht
        simp
      · obtain ⟨s, -, rfl⟩ := List.mem_map.1 ht
        simp
  · obtain ⟨h1, h2, h3, h4, h5⟩ := h (by simpa using hz)
    have hm : ∀ i j, p.mm i j ≠ 0 := by
      intro i j e
      exact hz (by simpa [Prob.hasZero] using ⟨i, j, e⟩)
    unfold matFile shifted
    rw [if_neg hz]
    have pos : ∀ k : Nat, k ≠ 0 → 1 ≤ k := fun k hk => by omega
    refine ⟨fun i j => pos _ (hm i j), ?_, ?_, ?_, ?_, ?_⟩
    · simp only [List.mem_map]
      rintro t ⟨s, hs, rfl⟩
      exact pos _ (h1 s hs)
    · simp only [List.mem_map]
      rintro t ⟨s, hs, rfl⟩
      exact pos _ (h2 s hs)
    · simp only [List.mem_map]
      rintro t ⟨s, hs, rfl⟩
      exact ⟨pos _ (h3 s hs).1, pos _ (h3 s hs).2⟩
    · simp only [List.mem_map]
      rintro t ⟨s, hs, rfl⟩
      exact pos _ (h4 s (List.mem_filter.1 hs).1)
    · simp only [List.mem_append, List.mem_flatten] at h5
      simp only [List.mem_append, List.mem_map, List.mem_flatten]
      rintro t (((⟨s, hs, rfl⟩ | ⟨s, hs, rfl⟩) | ⟨l, ⟨d, hd, rfl⟩, ht⟩) | ⟨l, ⟨d, hd, rfl⟩, ht⟩)
      · exact pos _ (h5 s (.inl (.inl (.inl hs))))
      · exact pos _ (h5 s (.inl (.inl (.inr hs))))
      · obtain ⟨s, hs, rfl⟩ := List.mem_map.1 ht
        exact pos _ (h5 s (.inl (.inr ⟨d, hd, hs⟩)))
      · obtain ⟨s, hs, rfl⟩ := List.mem_map.1 ht
        exact pos _ (h5 s (.inr ⟨d, hd, hs⟩))

end Verif.SdpWriter

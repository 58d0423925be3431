import Verif.LpSolver.CertProps
/-
C30 for the dual form of a problem with relaxed inequalities (the form used by `max_within_feasible`).
-/
namespace Verif.LpSolver

variable {K : Type} [Field K] [LinearOrder K] [IsStrictOrderedRing K]

/-- The list of the first `N` values of `y`. -/
def tabulate (N : Nat) (y : Nat → K) : List K := (List.range N).map y

omit [LinearOrder K] [IsStrictOrderedRing K] in
theorem tabulate_getD {N : Nat} (y : Nat → K) {i : Nat} (h : i < N) : (tabulate N y).getD i 0 = y i := by
  unfold tabulate
  rw [List.getD_eq_getElem _ _ (by simpa using h)]
  simp

/-- **C30, relaxed inequalities, dual form.** If the problem (without bounds and objective) has a solution, the dual of the problem with relaxed inequalities is not negative at any point
that satisfies its constraints. -/
theorem C30_dual_relaxed_inequalities {n : Nat} {f : Flags} {a : Args K} (h : ArgsOk n a) (hb : NoBounds a) (ho : a.objective.ents = []) (hd : f.dual = true) (hrk : f.relaxKnown = false)
    {t : Task K} (ht : buildTask f a = some t) {x : Nat → K} (hx : Solves n f.nonneg a x) {y : Nat → K} (hy : t.Feasible y) : 0 ≤ t.value y := by
  obtain ⟨p, hp, hdt⟩ := buildTask_dual hd ht
  have hs := prepare_spec h hp
  obtain ⟨-, -, hnv, -, -, -, -, -, -, hobj⟩ := dual_matrix h hs hdt
  have hL : (canonicalOrder a.lower).ents = [] := List.eq_nil_of_length_eq_zero (by rw [canonicalOrder_length, hb.1]; rfl)
  have hU : (canonicalOrder a.upper).ents = [] := List.eq_nil_of_length_eq_zero (by rw [canonicalOrder_length, hb.2]; rfl)
  rw [hb.1, hb.2, List.length_nil, Nat.add_zero] at hnv
  rw [hL, hU, List.map_nil, List.append_nil, List.map_nil, List.append_nil] at hobj
  -- a list with the same values
  let N := t.numvar + (t.ents.map fun e => e.2.1 + 1).sum
  have hN : ∀ e ∈ t.ents, e.2.1 < N := by
    intro e he
    have : e.2.1 + 1 ≤ (t.ents.map fun e => e.2.1 + 1).sum := List.single_le_sum (fun _ _ => Nat.zero_le _) _ (List.mem_map.2 ⟨e, he, rfl⟩)
    omega
  have hy' : t.Feasible fun i => (tabulate N y).getD i 0 := by
    constructor
    · intro i hi
      have e : rowAt t.ents (fun i => (tabulate N y).getD i 0) i = rowAt t.ents y i := rowAt_congr hN (fun j hj => tabulate_getD y hj) i
      rw [e]
      exact hy.con i hi
    · intro j hj
      have hj' : j < N := by omega
      simp only [tabulate_getD y hj']
      exact hy.var j hj
  have hlen : t.numvar ≤ (tabulate N y).length := by
    unfold tabulate
    rw [List.length_map, List.length_range]
    omega
  have hret : Returned f a (fun j => (if f.relaxed then slackVec p.con.cols else dense p.objective : List K).getD j 0) (tabulate N y) := by
    refine ⟨t, ht, ?_⟩
    rw [if_pos hd]
    exact ⟨hlen, hy'⟩
  have h1 := C31_feasibility_certificate_valid h hb ho hp hret hx.causal fun hf j hj => hx.nonneg hf j hj fun e he => by rw [hb.1] at he; exact absurd he (by simp)
  rw [C31_value_at_known h ho hrk hp (by omega) hx.known] at h1
  unfold Task.value
  rw [hnv, hobj]
  refine h1.trans_eq (Finset.sum_congr rfl fun i hi => ?_)
  rw [tabulate_getD y (by have := Finset.mem_range.1 hi; omega)]

end Verif.LpSolver

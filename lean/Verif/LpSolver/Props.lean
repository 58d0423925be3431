import Mathlib.Algebra.Order.Ring.Rat
import Verif.LpSolver.Dual
/-!
C29: the data given to the solver describe the user's linear program.
C30: checking feasibility by minimising a slack.
-/
namespace Verif.LpSolver
open Verif.Common

variable {K : Type} [Field K] [LinearOrder K]

theorem buildTask_primal {f : Flags} {a : Args K} {t : Task K} (hd : f.dual = false) (h : buildTask f a = some t) :
    ∃ p, prepare f a = some p ∧ t = primalTask f p := by
  unfold buildTask at h
  simp only [Option.bind_eq_bind, Option.bind_eq_some_iff, hd, Bool.false_eq_true, if_false, Option.some.injEq] at h
  obtain ⟨p, hp, rfl⟩ := h
  exact ⟨p, hp, rfl⟩

theorem buildTask_dual {f : Flags} {a : Args K} {t : Task K} (hd : f.dual = true) (h : buildTask f a = some t) :
    ∃ p, prepare f a = some p ∧ dualTask f p = some t := by
  unfold buildTask at h
  simp only [Option.bind_eq_bind, Option.bind_eq_some_iff, hd, if_true] at h
  exact h

/-- **C29, the solver's input is well formed.** Whatever the options, all the arrays passed to the solver have consistent lengths and
indices. -/
theorem C29_wellformed {n : Nat} {f : Flags} {a : Args K} (h : ArgsOk n a) {t : Task K} (ht : buildTask f a = some t) : t.WellFormed := by
  have hlen := canonicalOrder_length a.known
  have hL := canonicalOrder_length a.lower
  have hU := canonicalOrder_length a.upper
  have hslack : ∀ m, (slackVec m : List K).length = m := by intro m; simp [slackVec]
  have key : ∀ p, prepare f a = some p → PrepSpec n f a p ∧ p.b.length = p.con.rows ∧
      (if f.relaxed then slackVec p.con.cols else dense p.objective : List K).length = p.con.cols ∧
      p.nIneq + p.nEq + (if f.relaxKnown then p.nKnown * 2 else 0) = p.con.rows := by
    intro p hp
    have hs := prepare_spec h hp
    refine ⟨hs, ?_, ?_, ?_⟩
    · rw [hs.b, hs.rows]; split <;> simp [hlen]; omega
    · split
      · rw [hslack]
      · rename_i hr
        simp only [dense, List.length_map, List.length_range]
        have : p.con.cols = n := by rw [hs.cols, if_neg hr]
        rw [hs.objective]
        split
        · rfl
        · rename_i h0; rw [this]; exact h.objCols.resolve_left h0
    · rw [hs.nIneq, hs.nEq, hs.nKnown, hs.rows]; split <;> omega
  by_cases hd : f.dual = true
  · obtain ⟨p, hp, ht⟩ := buildTask_dual hd ht
    obtain ⟨hs, hb, hrhs, hcount⟩ := key p hp
    obtain ⟨he, hnc, hnv, hbl, hbu, hbk, hbx, hblx, hbux, hobj⟩ := dual_matrix h hs ht
    have hin := stack3_inRange h hs
    constructor
    · rw [hobj, hnv]; simp [hb, hL, hU]
    · rw [hbk, hnc]; simp
    · rw [hbl, hnc]; exact hrhs
    · rw [hbu, hbl, hnc]; exact hrhs
    · rw [hbx, hnv, ← hcount]
      by_cases hrk : f.relaxKnown = true
      · simp [hrk]; omega
      · simp [hrk]; omega
    · rw [hblx, hnv]; simp
    · rw [hbux, hblx, hnv]; simp
    · intro e hme
      rw [he] at hme
      obtain ⟨d, hd, rfl⟩ := List.mem_map.1 hme
      have := hin d hd
      rw [hnc, hnv]
      exact ⟨this.2, this.1⟩
  · obtain ⟨p, hp, rfl⟩ := buildTask_primal (by simpa using hd) ht
    obtain ⟨hs, hb, hrhs, hcount⟩ := key p hp
    have hsc : ∀ v : Coo K, (scatter p.con.cols v).length = p.con.cols := by
      intro v; unfold scatter; rw [foldl_set_length]; simp
    constructor
    · exact hrhs
    · simp only [primalTask]
      rw [← hcount]
      by_cases hrk : f.relaxKnown = true
      · simp [hrk]; omega
      · simp [hrk]
    · exact hb
    · exact hb
    · simp [primalTask]
    · exact hsc _
    · exact hsc _
    · exact hs.inRange

/-- **C29, feasible set.** Without relaxations, a point satisfies the constraints given to the solver exactly when it satisfies the
inequalities, the equalities, the known values and the bounds, and, if `default_non_negative`, is non-negative wherever no lower
bound was given. The objective is the user's. -/
theorem C29_primal_task {n : Nat} {f : Flags} {a : Args K} (h : ArgsOk n a) (hd : f.dual = false) (hrk : f.relaxKnown = false)
    (hri : f.relaxIneq = false) {t : Task K} (ht : buildTask f a = some t) :
    t.maximise = true ∧ t.numvar = n ∧ (∀ x, t.Feasible x ↔ Solves n f.nonneg a x) ∧ ∀ x, t.value x = linear a.objective x := by
  obtain ⟨p, hp, rfl⟩ := buildTask_primal hd ht
  have hs := prepare_spec h hp
  have hr : f.relaxed = false := by simp [Flags.relaxed, hrk, hri]
  have hn : p.con.cols = n := by rw [hs.cols, hr]; rfl
  have hnn : f.effNonneg = f.nonneg := by simp [Flags.effNonneg, hr]
  refine ⟨rfl, hn, ?_, ?_⟩
  · intro x
    have h1 := primal_con hs hrk hri x
    have h2 := primal_var h hs x
    rw [hnn] at h2
    constructor
    · rintro ⟨hc, hv⟩
      obtain ⟨hc1, hc2⟩ := h1.1 hc
      obtain ⟨hv1, hv2⟩ := h2.1 hv
      exact ⟨hc1, hc2, hv1, hv2⟩
    · rintro ⟨hc1, hc2, hv1, hv2⟩
      exact ⟨h1.2 ⟨hc1, hc2⟩, h2.2 ⟨hv1, hv2⟩⟩
  · intro x
    unfold Task.value
    show ∑ j ∈ Finset.range p.con.cols, (if f.relaxed then slackVec p.con.cols else dense p.objective : List K).getD j 0 * x j = _
    rw [hn, hr]
    exact objective_value h hs hr x

/-- **C29, the solver is called** whenever there is at least one constraint and every constraint has a term. -/
theorem C29_task_exists {n : Nat} {f : Flags} {a : Args K} (h : ArgsOk n a) (h1 : ∀ i, i < a.ineq.rows → ∃ e ∈ a.ineq.ents, e.1 = i)
    (h2 : ∀ i, i < a.eq.rows → ∃ e ∈ a.eq.ents, e.1 = i) (hne : 0 < a.ineq.rows + a.eq.rows) : ∃ t, buildTask f a = some t := by
  obtain ⟨B1, hB1⟩ := dropZeroRows_some h.ineq h1
  obtain ⟨B2, hB2⟩ := dropZeroRows_some h.eq h2
  have e1 := dropZeroRows_eq h.pos h.ineq hB1
  have e2 := dropZeroRows_eq h.pos h.eq hB2
  subst e1; subst e2
  have hbase := base_eq h.ineq h.eq (by omega)
  have hlen := canonicalOrder_length a.known
  have hkc := cols_lt h.known
  have hp : ∃ p, prepare f a = some p := by
    unfold prepare
    rw [hB1, hB2]
    simp only [Option.bind_eq_bind, Option.bind_some, hbase, Option.pure_def]
    obtain ⟨con, hcon⟩ : ∃ con, addKnown f.relaxKnown (⟨a.ineq.rows + a.eq.rows, n, stackEnts 0 [a.ineq, a.eq]⟩ : Coo K)
        (if f.relaxIneq = true then addSlack a.ineq.rows ⟨a.ineq.rows + a.eq.rows, n, stackEnts 0 [a.ineq, a.eq]⟩
          else ⟨a.ineq.rows + a.eq.rows, n, stackEnts 0 [a.ineq, a.eq]⟩) (canonicalOrder a.known) = some con := by
      unfold addKnown
      by_cases hrk : f.relaxKnown = true
      · rw [if_pos hrk, vstack_below]
        · exact ⟨_, rfl⟩
        · show a.ineq.rows + a.eq.rows ≠ 0; omega
        · intro h0
          have : (canonicalOrder a.known).ents.length = 0 := by
            simpa [canonicalOrder, relaxedKnown, (sortBy_perm _ _).length_eq] using h0
          have := List.length_eq_zero_iff.1 this
          simp [canonicalOrder, relaxedKnown] at this ⊢
          simp [this, sortBy]
        · simp [canonicalOrder, relaxedKnown]
      · rw [if_neg hrk, vstack_below]
        · exact ⟨_, rfl⟩
        · split
          · show a.ineq.rows + a.eq.rows ≠ 0; omega
          · show a.ineq.rows + a.eq.rows ≠ 0; omega
        · intro h0
          have : (canonicalOrder a.known).ents = [] := List.length_eq_zero_iff.1 h0
          simp [expandEq, this, unitEnts]
        · show a.known.cols ≤ _
          have := h.known.cols
          split
          · simp only [addSlack]; omega
          · exact this
    rw [hcon]
    exact ⟨_, rfl⟩
  obtain ⟨p, hp⟩ := hp
  unfold buildTask
  rw [hp]
  simp only [Option.bind_eq_bind, Option.bind_some]
  split
  · have hs := prepare_spec h hp
    have hL := canonicalOrder_length a.lower
    have hU := canonicalOrder_length a.upper
    unfold dualTask
    simp only [Option.bind_eq_bind, Option.pure_def]
    have : ∃ M, dualMatrix p = some M := by
      unfold dualMatrix
      split
      · rw [hs.lower, hs.upper, vstack_some (n := p.con.cols)]
        · exact ⟨_, rfl⟩
        · intro b hb h0
          simp only [List.mem_cons, List.not_mem_nil, or_false] at hb
          rcases hb with rfl | rfl | rfl
          · have := hs.rows; omega
          · have : (canonicalOrder a.lower).ents = [] := List.length_eq_zero_iff.1 h0
            simp [expandEq, this, unitEnts]
          · have : (canonicalOrder a.upper).ents = [] := List.length_eq_zero_iff.1 h0
            simp [negEnts, expandEq, this, unitEnts]
        · have hc : n ≤ p.con.cols := by rw [hs.cols]; split <;> omega
          intro b hb
          simp only [List.mem_cons, List.not_mem_nil, or_false] at hb
          rcases hb with rfl | rfl | rfl
          · exact le_refl _
          · exact le_trans h.lower.cols hc
          · exact le_trans h.upper.cols hc
        · intro b hb _
          simp only [List.mem_cons, List.not_mem_nil, or_false] at hb
          by_cases hbc : b = p.con
          · left; rw [hbc]
          · right
            exact ⟨p.con, by simp, by have := hs.rows; omega, rfl, fun h => hbc h.symm⟩
        · exact ⟨p.con, by simp, by have := hs.rows; omega⟩
      · exact ⟨_, rfl⟩
    obtain ⟨M, hM⟩ := this
    rw [hM]
    exact ⟨_, rfl⟩
  · exact ⟨_, rfl⟩

/-- **C29, exception.** A constraint without terms (which any point satisfies) makes the call fail: the function that should drop it
raises. -/
theorem C29_empty_constraint_raises {n : Nat} (f : Flags) {a : Args K} (h : ArgsOk n a) {i : Nat}
    (hi : (i < a.ineq.rows ∧ ∀ e ∈ a.ineq.ents, e.1 ≠ i) ∨ (i < a.eq.rows ∧ ∀ e ∈ a.eq.ents, e.1 ≠ i)) : buildTask f a = none := by
  have hp : prepare f a = none := by
    unfold prepare
    rcases hi with ⟨hi, hne⟩ | ⟨hi, hne⟩
    · rw [dropZeroRows_none h.pos h.ineq hi hne]
      rfl
    · rw [dropZeroRows_none h.pos h.eq hi hne]
      rcases dropZeroRows a.ineq with _ | B <;> rfl
  unfold buildTask
  rw [hp]
  rfl

variable [IsStrictOrderedRing K]

/-- **C29, the dual bounds the primal.** Every point satisfying the constraints of the dual task bounds the objective over the
solutions of the linear program, if variables are free by default or their lower bounds are non-negative. -/
theorem C29_weak_duality {n : Nat} {f : Flags} {a : Args K} (h : ArgsOk n a) (hd : f.dual = true) (hrk : f.relaxKnown = false)
    (hri : f.relaxIneq = false) (hlb : f.nonneg = true → ∀ e ∈ a.lower.ents, 0 ≤ e.2.2) {t : Task K} (ht : buildTask f a = some t)
    {x y : Nat → K} (hx : Solves n f.nonneg a x) (hy : t.Feasible y) : linear a.objective x ≤ t.value y := by
  obtain ⟨p, hp, ht⟩ := buildTask_dual hd ht
  have hs := prepare_spec h hp
  have hr : f.relaxed = false := by simp [Flags.relaxed, hrk, hri]
  have hn : p.con.cols = n := by rw [hs.cols, hr]; rfl
  have hnn : f.effNonneg = f.nonneg := by simp [Flags.effNonneg, hr]
  obtain ⟨_, _, hnv, hblc, _, _, _, _, _, hobj⟩ := dual_matrix h hs ht
  obtain ⟨hy1, hy2, _⟩ := dual_signs h hs ht hy
  have hcore := dual_core h hs ht hy (x := x) (by
    intro hn' j hj
    rw [hnn] at hn'
    rw [hn] at hj
    by_cases hl : ∃ e ∈ a.lower.ents, e.2.1 = j
    · obtain ⟨e, he, rfl⟩ := hl
      exact le_trans (hlb hn' e he) (hx.bounds.lower e he)
    · exact hx.nonneg hn' j hj fun e he heq => hl ⟨e, he, heq⟩)
  have hrows := rows_bound hs hy1 hx.causal hrk hri
  rw [hblc, hr, hn] at hcore
  simp only [Bool.false_eq_true, if_false] at hcore
  rw [objective_value h hs hr x] at hcore
  -- the value of the dual objective
  have hL := canonicalOrder_length a.lower
  have hU := canonicalOrder_length a.upper
  have hlen := canonicalOrder_length a.known
  have hcr := hs.rows
  have hb := hs.b
  rw [hrk] at hcr hb
  simp only [Bool.false_eq_true, if_false] at hcr hb
  have hval : t.value y = ∑ k ∈ Finset.range a.known.ents.length, knownVal a k * y (a.ineq.rows + a.eq.rows + k) +
      (∑ k ∈ Finset.range a.lower.ents.length, vecVal a.lower k * y (p.con.rows + k) -
       ∑ k ∈ Finset.range a.upper.ents.length, vecVal a.upper k * y (p.con.rows + a.lower.ents.length + k)) := by
    unfold Task.value
    rw [hnv, hobj, hb, Finset.sum_range_add, Finset.sum_range_add, hcr, Finset.sum_range_add]
    have e0 : ∑ i ∈ Finset.range (a.ineq.rows + a.eq.rows), (List.replicate (a.ineq.rows + a.eq.rows) (0 : K) ++
        ((canonicalOrder a.known).ents.map fun e => e.2.2) ++ ((canonicalOrder a.lower).ents.map fun e => e.2.2) ++
        ((canonicalOrder a.upper).ents.map fun e => -e.2.2)).getD i 0 * y i = 0 := by
      apply Finset.sum_eq_zero
      intro i hi
      have hi' := Finset.mem_range.1 hi
      rw [List.append_assoc, List.append_assoc, List.getD_append _ _ _ _ (by simpa using hi'), getD_rep hi', zero_mul]
    rw [e0, zero_add]
    congr 1
    · apply Finset.sum_congr rfl
      intro k hk
      have hk' := Finset.mem_range.1 hk
      rw [List.append_assoc, List.append_assoc, List.getD_append_right _ _ _ _ (by simp), List.length_replicate, Nat.add_sub_cancel_left,
        List.getD_append _ _ _ _ (by simp [hlen, hk'])]
      rfl
    · rw [sub_eq_add_neg, ← Finset.sum_neg_distrib]
      congr 1
      · apply Finset.sum_congr rfl
        intro k hk
        have hk' := Finset.mem_range.1 hk
        rw [List.append_assoc, List.getD_append_right _ _ _ _ (by simp [hlen]), List.getD_append _ _ _ _ (by simp [hlen, hL, hk'])]
        have : a.ineq.rows + a.eq.rows + a.known.ents.length + k -
            (List.replicate (a.ineq.rows + a.eq.rows) (0 : K) ++ ((canonicalOrder a.known).ents.map fun e => e.2.2)).length = k := by
          simp [hlen]
        rw [this]
        rfl
      · apply Finset.sum_congr rfl
        intro k hk
        have hk' := Finset.mem_range.1 hk
        rw [List.getD_append_right _ _ _ _ (by simp [hlen, hL]; omega)]
        have : a.ineq.rows + a.eq.rows + a.known.ents.length + (a.lower.ents.length + k) -
            (List.replicate (a.ineq.rows + a.eq.rows) (0 : K) ++ ((canonicalOrder a.known).ents.map fun e => e.2.2) ++
              ((canonicalOrder a.lower).ents.map fun e => e.2.2)).length = k := by
          simp [hlen, hL]; omega
        rw [this, ← Nat.add_assoc]
        unfold vecVal
        rw [List.getD_eq_getElem _ _ (by simp [hU, hk']), List.getD_eq_getElem _ _ (by simp [hU, hk'])]
        simp
  have hk1 : ∑ k ∈ Finset.range a.known.ents.length, y (a.ineq.rows + a.eq.rows + k) * x (knownCol a k) =
      ∑ k ∈ Finset.range a.known.ents.length, knownVal a k * y (a.ineq.rows + a.eq.rows + k) := by
    apply Finset.sum_congr rfl
    intro k hk
    rw [(known_iff x).1 hx.known k (Finset.mem_range.1 hk), mul_comm]
  have hk2 : ∑ k ∈ Finset.range a.lower.ents.length, y (p.con.rows + k) * x (vecCol a.lower k) ≤
      ∑ k ∈ Finset.range a.lower.ents.length, vecVal a.lower k * y (p.con.rows + k) := by
    apply Finset.sum_le_sum
    intro k hk
    have hk' := Finset.mem_range.1 hk
    have h1 := vec_forall (v := a.lower) (P := fun c v => v ≤ x c) hx.bounds.lower hk'
    have h2 := hy2 k (by omega)
    rw [mul_comm (vecVal a.lower k)]
    exact mul_le_mul_of_nonpos_left h1 h2
  have hk3 : ∑ k ∈ Finset.range a.upper.ents.length, vecVal a.upper k * y (p.con.rows + a.lower.ents.length + k) ≤
      ∑ k ∈ Finset.range a.upper.ents.length, y (p.con.rows + a.lower.ents.length + k) * x (vecCol a.upper k) := by
    apply Finset.sum_le_sum
    intro k hk
    have hk' := Finset.mem_range.1 hk
    have h1 := vec_forall (v := a.upper) (P := fun c v => x c ≤ v) hx.bounds.upper hk'
    have h2 := hy2 (a.lower.ents.length + k) (by omega)
    rw [← Nat.add_assoc] at h2
    rw [mul_comm (vecVal a.upper k)]
    exact mul_le_mul_of_nonpos_left h1 h2
  rw [hval]
  rw [hk1] at hrows
  linarith

end Verif.LpSolver

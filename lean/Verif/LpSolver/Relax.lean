import Verif.LpSolver.Props
/-! C30: feasibility as optimisation of a slack. -/
namespace Verif.LpSolver
open Verif.Common

variable {K : Type} [Field K] [LinearOrder K]

theorem slackVec_value (n : Nat) (z : Nat → K) : ∑ j ∈ Finset.range (n + 1), (slackVec (n + 1) : List K).getD j 0 * z j = - z n := by
  rw [Finset.sum_range_succ]
  have h0 : ∑ j ∈ Finset.range n, (slackVec (n + 1) : List K).getD j 0 * z j = 0 := by
    apply Finset.sum_eq_zero
    intro j hj
    have hj' := Finset.mem_range.1 hj
    have : (slackVec (n + 1) : List K).getD j 0 = 0 := by
      unfold slackVec
      rw [List.getD_eq_getElem?_getD, List.getElem?_set_ne (by omega), List.getElem?_replicate]
      split <;> rfl
    rw [this, zero_mul]
  have h1 : (slackVec (n + 1) : List K).getD n 0 = -1 := by
    unfold slackVec
    rw [List.getD_eq_getElem?_getD]
    simp
  rw [h0, h1]
  ring

theorem relaxed_value {n : Nat} {f : Flags} {a : Args K} {p : Prep K} (hs : PrepSpec n f a p) (hr : f.relaxed = true) (z : Nat → K) :
    (primalTask f p).value z = - z n := by
  have hc := hs.cols
  rw [hr] at hc
  simp only [if_true] at hc
  unfold Task.value
  show ∑ j ∈ Finset.range p.con.cols, (if f.relaxed then slackVec p.con.cols else dense p.objective : List K).getD j 0 * z j = _
  rw [hr, hc]
  exact slackVec_value n z

/-- Constraints of the primal task with relaxed inequalities only. -/
theorem relaxIneq_con {n : Nat} {f : Flags} {a : Args K} {p : Prep K} (hs : PrepSpec n f a p) (hrk : f.relaxKnown = false)
    (hri : f.relaxIneq = true) (x : Nat → K) :
    (∀ i, i < (primalTask f p).numcon → sat ((primalTask f p).bkc.getD i .fr) ((primalTask f p).blc.getD i 0) ((primalTask f p).buc.getD i 0)
      (rowAt (primalTask f p).ents x i)) ↔
      (∀ i, i < a.ineq.rows → 0 ≤ rowAt a.ineq.ents x i + x n) ∧ (∀ i, i < a.eq.rows → rowAt a.eq.ents x i = 0) ∧ Known a x := by
  have hrows := hs.rows
  have hb := hs.b
  have hnE := hs.nEq
  have hlen := canonicalOrder_length a.known
  simp only [hrk, Bool.false_eq_true, if_false] at hrows hb hnE
  simp only [primalTask, hrk, Bool.false_eq_true, if_false, List.append_nil, hs.nIneq, hnE, hb, hrows]
  rw [known_iff]
  constructor
  · intro h
    refine ⟨?_, ?_, ?_⟩
    · intro i hi
      have := h i (by omega)
      rw [List.getD_append _ _ _ _ (by simpa using hi), getD_rep hi, List.getD_append _ _ _ _ (by simp; omega),
        getD_rep (by omega), hs.ineqRow x i hi] at this
      simpa [sat, hri] using this
    · intro i hi
      have := h (a.ineq.rows + i) (by omega)
      rw [List.getD_append_right _ _ _ _ (by simp), List.length_replicate, Nat.add_sub_cancel_left, getD_rep (by omega),
        List.getD_append _ _ _ _ (by simp; omega), getD_rep (by omega), hs.eqRow x i hi] at this
      simpa [sat] using this
    · intro k hk
      have := h (a.ineq.rows + a.eq.rows + k) (by omega)
      rw [List.getD_append_right _ _ _ _ (by simp; omega), List.length_replicate, getD_rep (by omega),
        List.getD_append_right _ _ _ _ (by simp), List.length_replicate, Nat.add_sub_cancel_left, hs.knownRow hrk x k hk] at this
      simpa [sat, knownVal] using this
  · rintro ⟨h1, h2, h3⟩ i hi
    rcases Nat.lt_or_ge i a.ineq.rows with hlt | hge
    · rw [List.getD_append _ _ _ _ (by simpa using hlt), getD_rep hlt, List.getD_append _ _ _ _ (by simp; omega),
        getD_rep (by omega), hs.ineqRow x i hlt]
      simpa [sat, hri] using h1 i hlt
    · rcases Nat.lt_or_ge i (a.ineq.rows + a.eq.rows) with hlt | hge'
      · obtain ⟨j, rfl⟩ := Nat.exists_eq_add_of_le hge
        rw [List.getD_append_right _ _ _ _ (by simp), List.length_replicate, Nat.add_sub_cancel_left, getD_rep (by omega),
          List.getD_append _ _ _ _ (by simp; omega), getD_rep (by omega), hs.eqRow x j (by omega)]
        simpa [sat] using h2 j (by omega)
      · obtain ⟨k, rfl⟩ := Nat.exists_eq_add_of_le hge'
        rw [List.getD_append_right _ _ _ _ (by simp; omega), List.length_replicate, getD_rep (by omega),
          List.getD_append_right _ _ _ _ (by simp), List.length_replicate, Nat.add_sub_cancel_left, hs.knownRow hrk x k (by omega)]
        simpa [sat, knownVal] using h3 k (by omega)

/-- Constraints of the primal task with relaxed known values. -/
theorem relaxKnown_con {n : Nat} {f : Flags} {a : Args K} {p : Prep K} (hs : PrepSpec n f a p) (hrk : f.relaxKnown = true) (x : Nat → K) :
    (∀ i, i < (primalTask f p).numcon → sat ((primalTask f p).bkc.getD i .fr) ((primalTask f p).blc.getD i 0) ((primalTask f p).buc.getD i 0)
      (rowAt (primalTask f p).ents x i)) ↔
      (∀ i, i < a.ineq.rows → 0 ≤ rowAt a.ineq.ents x i + (if f.relaxIneq then x n else 0)) ∧
      (∀ i, i < a.eq.rows → rowAt a.eq.ents x i = 0) ∧
      (∀ k, k < a.known.ents.length → knownVal a k ≤ x (knownCol a k) + x n ∧ x (knownCol a k) - x n ≤ knownVal a k) := by
  have hrows := hs.rows
  have hb := hs.b
  have hnE := hs.nEq
  have hlen := canonicalOrder_length a.known
  simp only [hrk, if_true] at hrows hb hnE
  simp only [primalTask, hrk, if_true, hs.nIneq, hnE, hb, hrows, hs.nKnown]
  have hkb1 : ∀ k, k < a.known.ents.length →
      (List.replicate a.ineq.rows BoundKey.lo ++ List.replicate a.eq.rows BoundKey.fx ++
        (List.replicate a.known.ents.length BoundKey.lo ++ List.replicate a.known.ents.length BoundKey.up)).getD
        (a.ineq.rows + a.eq.rows + k) .fr = .lo := by
    intro k hk
    rw [List.getD_append_right _ _ _ _ (by simp), List.getD_append _ _ _ _ (by simp; omega), getD_rep (by simp; omega)]
  have hkb2 : ∀ k, k < a.known.ents.length →
      (List.replicate a.ineq.rows BoundKey.lo ++ List.replicate a.eq.rows BoundKey.fx ++
        (List.replicate a.known.ents.length BoundKey.lo ++ List.replicate a.known.ents.length BoundKey.up)).getD
        (a.ineq.rows + a.eq.rows + a.known.ents.length + k) .fr = .up := by
    intro k hk
    rw [List.getD_append_right _ _ _ _ (by simp; omega), List.getD_append_right _ _ _ _ (by simp; omega), getD_rep (by simp; omega)]
  have hbv1 : ∀ k, k < a.known.ents.length → (List.replicate (a.ineq.rows + a.eq.rows) (0 : K) ++
      (((canonicalOrder a.known).ents.map fun e => e.2.2) ++ ((canonicalOrder a.known).ents.map fun e => e.2.2))).getD
      (a.ineq.rows + a.eq.rows + k) 0 = knownVal a k := by
    intro k hk
    rw [List.getD_append_right _ _ _ _ (by simp), List.length_replicate, Nat.add_sub_cancel_left, List.getD_append _ _ _ _ (by simp [hlen, hk])]
    rfl
  have hbv2 : ∀ k, k < a.known.ents.length → (List.replicate (a.ineq.rows + a.eq.rows) (0 : K) ++
      (((canonicalOrder a.known).ents.map fun e => e.2.2) ++ ((canonicalOrder a.known).ents.map fun e => e.2.2))).getD
      (a.ineq.rows + a.eq.rows + a.known.ents.length + k) 0 = knownVal a k := by
    intro k hk
    rw [List.getD_append_right _ _ _ _ (by simp; omega), List.length_replicate, List.getD_append_right _ _ _ _ (by simp [hlen]; omega)]
    have : a.ineq.rows + a.eq.rows + a.known.ents.length + k - (a.ineq.rows + a.eq.rows) -
        ((canonicalOrder a.known).ents.map fun e => e.2.2).length = k := by simp [hlen]; omega
    rw [this]
    rfl
  constructor
  · intro h
    refine ⟨?_, ?_, ?_⟩
    · intro i hi
      have := h i (by omega)
      rw [List.append_assoc, List.getD_append _ _ _ _ (by simpa using hi), getD_rep hi, List.getD_append _ _ _ _ (by simp; omega),
        getD_rep (by omega), hs.ineqRow x i hi] at this
      exact this
    · intro i hi
      have := h (a.ineq.rows + i) (by omega)
      rw [List.append_assoc, List.getD_append_right _ _ _ _ (by simp), List.length_replicate, Nat.add_sub_cancel_left,
        List.getD_append _ _ _ _ (by simpa using hi), getD_rep hi,
        List.getD_append _ _ _ _ (by simp; omega), getD_rep (by omega), hs.eqRow x i hi] at this
      exact this
    · intro k hk
      have h1 := h (a.ineq.rows + a.eq.rows + k) (by omega)
      have h2 := h (a.ineq.rows + a.eq.rows + a.known.ents.length + k) (by omega)
      rw [hkb1 k hk, hbv1 k hk, (hs.relaxedRow hrk x k hk).1] at h1
      rw [hkb2 k hk, hbv2 k hk, (hs.relaxedRow hrk x k hk).2] at h2
      exact ⟨h1, h2⟩
  · rintro ⟨h1, h2, h3⟩ i hi
    rcases Nat.lt_or_ge i a.ineq.rows with hlt | hge
    · rw [List.append_assoc, List.getD_append _ _ _ _ (by simpa using hlt), getD_rep hlt, List.getD_append _ _ _ _ (by simp; omega),
        getD_rep (by omega), hs.ineqRow x i hlt]
      exact h1 i hlt
    · rcases Nat.lt_or_ge i (a.ineq.rows + a.eq.rows) with hlt | hge'
      · obtain ⟨j, rfl⟩ := Nat.exists_eq_add_of_le hge
        have hj : j < a.eq.rows := by omega
        rw [List.append_assoc, List.getD_append_right _ _ _ _ (by simp), List.length_replicate, Nat.add_sub_cancel_left,
          List.getD_append _ _ _ _ (by simpa using hj), getD_rep hj,
          List.getD_append _ _ _ _ (by simp; omega), getD_rep (by omega), hs.eqRow x j hj]
        exact h2 j hj
      · rcases Nat.lt_or_ge i (a.ineq.rows + a.eq.rows + a.known.ents.length) with hlt | hge''
        · obtain ⟨k, rfl⟩ := Nat.exists_eq_add_of_le hge'
          have hk : k < a.known.ents.length := by omega
          rw [hkb1 k hk, hbv1 k hk, (hs.relaxedRow hrk x k hk).1]
          exact (h3 k hk).1
        · obtain ⟨k, rfl⟩ := Nat.exists_eq_add_of_le hge''
          have hk : k < a.known.ents.length := by omega
          rw [hkb2 k hk, hbv2 k hk, (hs.relaxedRow hrk x k hk).2]
          exact (h3 k hk).2

variable [IsStrictOrderedRing K]

/-- The point with the slack set to a value. -/
def withSlack (n : Nat) (x : Nat → K) (v : K) : Nat → K := fun j => if j = n then v else x j

omit [IsStrictOrderedRing K] in
theorem withSlack_row {n : Nat} {A : Coo K} (h : MatrixOk n A) (x : Nat → K) (v : K) (i : Nat) :
    rowAt A.ents (withSlack n x v) i = rowAt A.ents x i :=
  rowAt_congr (fun e he => (h.inRange e he).2) (fun j hj => by simp [withSlack, Nat.ne_of_lt hj]) i

omit [IsStrictOrderedRing K] in
theorem withSlack_bounds {n : Nat} {a : Args K} (h : ArgsOk n a) (x : Nat → K) (v : K) : Bounds a (withSlack n x v) ↔ Bounds a x := by
  have hL : ∀ e ∈ a.lower.ents, withSlack n x v e.2.1 = x e.2.1 := fun e he => by
    simp [withSlack, Nat.ne_of_lt (h.lower.inRange e he).2]
  have hU : ∀ e ∈ a.upper.ents, withSlack n x v e.2.1 = x e.2.1 := fun e he => by
    simp [withSlack, Nat.ne_of_lt (h.upper.inRange e he).2]
  constructor
  · rintro ⟨h1, h2⟩
    exact ⟨fun e he => by rw [← hL e he]; exact h1 e he, fun e he => by rw [← hU e he]; exact h2 e he⟩
  · rintro ⟨h1, h2⟩
    exact ⟨fun e he => by rw [hL e he]; exact h1 e he, fun e he => by rw [hU e he]; exact h2 e he⟩

/-- **C30, relaxed inequalities.** With `relax_inequalities` the problem without default non-negativity has a solution exactly when
the relaxed problem reaches a non-negative objective (minus the slack). -/
theorem C30_relaxed_inequalities {n : Nat} {f : Flags} {a : Args K} (h : ArgsOk n a) (hd : f.dual = false) (hrk : f.relaxKnown = false)
    (hri : f.relaxIneq = true) {t : Task K} (ht : buildTask f a = some t) :
    (∃ x, Solves n false a x) ↔ ∃ z, t.Feasible z ∧ 0 ≤ t.value z := by
  obtain ⟨p, hp, rfl⟩ := buildTask_primal hd ht
  have hs := prepare_spec h hp
  have hr : f.relaxed = true := by simp [Flags.relaxed, hri]
  have hnn : f.effNonneg = false := by simp [Flags.effNonneg, hr]
  constructor
  · rintro ⟨x, hx⟩
    refine ⟨withSlack n x 0, ⟨(relaxIneq_con hs hrk hri _).2 ⟨?_, ?_, ?_⟩, (primal_var h hs _).2 ⟨(withSlack_bounds h x 0).2 hx.bounds, ?_⟩⟩, ?_⟩
    · intro i hi
      rw [withSlack_row h.ineq]
      simpa [withSlack] using hx.causal.ineq i hi
    · intro i hi
      rw [withSlack_row h.eq]
      exact hx.causal.eq i hi
    · intro e he
      have := (h.known.inRange e he).2
      simpa [withSlack, Nat.ne_of_lt this] using hx.known e he
    · intro hc; rw [hnn] at hc; exact absurd hc (by decide)
    · rw [relaxed_value hs hr]; simp [withSlack]
  · rintro ⟨z, hz, hv⟩
    rw [relaxed_value hs hr] at hv
    obtain ⟨h1, h2, h3⟩ := (relaxIneq_con hs hrk hri z).1 hz.con
    obtain ⟨h4, _⟩ := (primal_var h hs z).1 hz.var
    refine ⟨z, ⟨⟨?_, h2⟩, h3, h4, fun hc => absurd hc (by decide)⟩⟩
    intro i hi
    have := h1 i hi
    linarith

/-- **C30, relaxed known values.** With `relax_known_vars`, and at least one known value, the objective (minus the slack) is never
positive, and it reaches zero exactly when the problem without default non-negativity has a solution. -/
theorem C30_relaxed_known_values {n : Nat} {f : Flags} {a : Args K} (h : ArgsOk n a) (hd : f.dual = false) (hrk : f.relaxKnown = true)
    (hk : a.known.ents ≠ []) {t : Task K} (ht : buildTask f a = some t) :
    (∀ z, t.Feasible z → t.value z ≤ 0) ∧ ((∃ x, Solves n false a x) ↔ ∃ z, t.Feasible z ∧ t.value z = 0) := by
  obtain ⟨p, hp, rfl⟩ := buildTask_primal hd ht
  have hs := prepare_spec h hp
  have hr : f.relaxed = true := by simp [Flags.relaxed, hrk]
  have hnn : f.effNonneg = false := by simp [Flags.effNonneg, hr]
  have hk0 : 0 < a.known.ents.length := List.length_pos_iff.2 hk
  refine ⟨?_, ?_⟩
  · intro z hz
    obtain ⟨_, _, h3⟩ := (relaxKnown_con hs hrk z).1 hz.con
    obtain ⟨h5, h6⟩ := h3 0 hk0
    rw [relaxed_value hs hr]
    linarith
  · constructor
    · rintro ⟨x, hx⟩
      refine ⟨withSlack n x 0, ⟨(relaxKnown_con hs hrk _).2 ⟨?_, ?_, ?_⟩, (primal_var h hs _).2 ⟨(withSlack_bounds h x 0).2 hx.bounds, ?_⟩⟩, ?_⟩
      · intro i hi
        rw [withSlack_row h.ineq]
        have := hx.causal.ineq i hi
        split <;> simpa [withSlack] using this
      · intro i hi
        rw [withSlack_row h.eq]
        exact hx.causal.eq i hi
      · intro k hk
        have hlt := knownCol_lt h hk
        have := (known_iff x).1 hx.known k hk
        simp [withSlack, Nat.ne_of_lt hlt, this]
      · intro hc; rw [hnn] at hc; exact absurd hc (by decide)
      · rw [relaxed_value hs hr]; simp [withSlack]
    · rintro ⟨z, hz, hv⟩
      rw [relaxed_value hs hr] at hv
      have hz0 : z n = 0 := by linarith
      obtain ⟨h1, h2, h3⟩ := (relaxKnown_con hs hrk z).1 hz.con
      obtain ⟨h4, _⟩ := (primal_var h hs z).1 hz.var
      refine ⟨z, ⟨⟨?_, h2⟩, ?_, h4, fun hc => absurd hc (by decide)⟩⟩
      · intro i hi
        have := h1 i hi
        rw [hz0] at this
        simpa using this
      · rw [known_iff]
        intro k hk
        obtain ⟨h5, h6⟩ := h3 k hk
        rw [hz0] at h5 h6
        apply le_antisymm <;> linarith

/-- **C30, default non-negativity.** If the constraints of the problem imply that the variables are non-negative (as those of every
inflation problem do, `C30_inflation_rows_imply_nonneg`), the relaxed problem also answers the question with
`default_non_negative`. -/
theorem C30_with_default_nonneg {n : Nat} {f : Flags} {a : Args K} (h : ArgsOk n a) (hd : f.dual = false) (hrk : f.relaxKnown = false)
    (hri : f.relaxIneq = true) {t : Task K} (ht : buildTask f a = some t)
    (himp : ∀ x, Causal a x → Known a x → ∀ j, j < n → 0 ≤ x j) :
    (∃ x, Solves n true a x) ↔ ∃ z, t.Feasible z ∧ 0 ≤ t.value z := by
  rw [← C30_relaxed_inequalities h hd hrk hri ht]
  constructor
  · rintro ⟨x, h1, h2, h3, _⟩; exact ⟨x, h1, h2, h3, fun hc => absurd hc (by decide)⟩
  · rintro ⟨x, h1, h2, h3, _⟩; exact ⟨x, h1, h2, h3, fun _ j hj _ => himp x h1 h2 j hj⟩

end Verif.LpSolver

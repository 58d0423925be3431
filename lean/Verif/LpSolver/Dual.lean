import Mathlib.Algebra.Order.BigOperators.Group.Finset
import Verif.LpSolver.Primal
/-! Meaning of the dual task. -/
namespace Verif.LpSolver
open Verif.Common

variable {K : Type} [Field K] [LinearOrder K]

/-- Transposed entries. -/
def transp (l : List (Nat × Nat × K)) : List (Nat × Nat × K) := l.map fun e => (e.2.1, e.1, e.2.2)

/-- `yᵀ A x`. -/
def bil (l : List (Nat × Nat × K)) (y x : Nat → K) : K := (l.map fun e => e.2.2 * y e.1 * x e.2.1).sum

theorem bil_rows {l : List (Nat × Nat × K)} {m : Nat} (h : ∀ e ∈ l, e.1 < m) (y x : Nat → K) :
    ∑ i ∈ Finset.range m, y i * rowAt l x i = bil l y x := by
  induction l with
  | nil => simp [rowAt_nil, bil]
  | cons e l ih =>
    have he := h e (by simp)
    simp only [rowAt_cons, mul_add, Finset.sum_add_distrib]
    rw [ih fun d hd => h d (List.mem_cons_of_mem _ hd)]
    simp only [mul_ite, mul_zero]
    rw [Finset.sum_ite_eq, if_pos (Finset.mem_range.2 he)]
    simp only [bil, List.map_cons, List.sum_cons]
    ring

theorem bil_cols {l : List (Nat × Nat × K)} {n : Nat} (h : ∀ e ∈ l, e.2.1 < n) (y x : Nat → K) :
    ∑ j ∈ Finset.range n, rowAt (transp l) y j * x j = bil l y x := by
  have := bil_rows (l := transp l) (m := n) (by
    intro e he
    obtain ⟨d, hd, rfl⟩ := List.mem_map.1 he
    exact h d hd) x y
  rw [Finset.sum_congr rfl fun j _ => mul_comm _ _, this]
  unfold bil transp
  rw [List.map_map]
  congr 1
  apply List.map_congr_left
  intro e _
  simp only [Function.comp]
  ring

theorem rowAt_congr {l : List (Nat × Nat × K)} {n : Nat} (h : ∀ e ∈ l, e.2.1 < n) {x z : Nat → K} (hxz : ∀ j, j < n → x j = z j) (i : Nat) :
    rowAt l x i = rowAt l z i := by
  unfold rowAt
  congr 1
  apply List.map_congr_left
  intro e he
  rw [hxz _ (h e (List.mem_of_mem_filter he))]

/-- Column of the `k`-th bound in the order used by the solver. -/
def vecCol (v : Coo K) (k : Nat) : Nat := ((canonicalOrder v).ents.map fun e => e.2.1).getD k 0
/-- Its value. -/
def vecVal (v : Coo K) (k : Nat) : K := ((canonicalOrder v).ents.map fun e => e.2.2).getD k 0

theorem vec_forall {v : Coo K} {P : Nat → K → Prop} (h : ∀ e ∈ v.ents, P e.2.1 e.2.2) {k : Nat} (hk : k < v.ents.length) :
    P (vecCol v k) (vecVal v k) := by
  have hlen := canonicalOrder_length v
  rw [← hlen] at hk
  unfold vecCol vecVal
  rw [List.getD_eq_getElem _ _ (by simpa using hk), List.getD_eq_getElem _ _ (by simpa using hk), List.getElem_map, List.getElem_map]
  exact h _ ((canonicalOrder_perm _).mem_iff.1 (List.getElem_mem hk))

theorem dual_matrix {n : Nat} {f : Flags} {a : Args K} (h : ArgsOk n a) {p : Prep K} (hs : PrepSpec n f a p) {t : Task K}
    (ht : dualTask f p = some t) :
    t.ents = transp (stackEnts 0 [p.con, expandEq (canonicalOrder a.lower), negEnts (expandEq (canonicalOrder a.upper))]) ∧
    t.numcon = p.con.cols ∧ t.numvar = p.con.rows + (a.lower.ents.length + a.upper.ents.length) ∧
    t.blc = (if f.relaxed then slackVec p.con.cols else dense p.objective) ∧ t.buc = t.blc ∧
    t.bkc = List.replicate p.con.cols (if f.effNonneg then .lo else .fx) ∧
    t.bkx = List.replicate p.nIneq .up ++ List.replicate p.nEq .fr ++
      (if f.relaxKnown then List.replicate p.nKnown .up ++ List.replicate p.nKnown .lo else []) ++
      List.replicate (a.lower.ents.length + a.upper.ents.length) .up ∧
    t.blx = List.replicate (p.con.rows + (a.lower.ents.length + a.upper.ents.length)) 0 ∧ t.bux = t.blx ∧
    t.obj = p.b ++ ((canonicalOrder a.lower).ents.map fun e => e.2.2) ++ ((canonicalOrder a.upper).ents.map fun e => -e.2.2) := by
  have hL := canonicalOrder_length a.lower
  have hU := canonicalOrder_length a.upper
  unfold dualTask at ht
  simp only [hs.lower, hs.upper, hL, hU, Option.pure_def, Option.bind_eq_bind, Option.bind_eq_some_iff, Option.some.injEq] at ht
  obtain ⟨M, hM, rfl⟩ := ht
  have hMe : M.ents = stackEnts 0 [p.con, expandEq (canonicalOrder a.lower), negEnts (expandEq (canonicalOrder a.upper))] := by
    unfold dualMatrix at hM
    rw [hs.lower, hs.upper, hL, hU] at hM
    split at hM
    · rw [vstack_some (n := p.con.cols)] at hM
      · simp only [Option.some.injEq] at hM
        rw [← hM]
      · intro b hb h0
        simp only [List.mem_cons, List.not_mem_nil, or_false] at hb
        rcases hb with rfl | rfl | rfl
        · have := hs.rows; have := hs.pos; omega
        · have : (canonicalOrder a.lower).ents = [] := List.length_eq_zero_iff.1 h0
          simp [expandEq, this, unitEnts]
        · have : (canonicalOrder a.upper).ents = [] := List.length_eq_zero_iff.1 h0
          simp [negEnts, expandEq, this, unitEnts]
      · have hc : n ≤ p.con.cols := by rw [hs.cols]; split <;> omega
        intro b hb
        simp only [List.mem_cons, List.not_mem_nil, or_false] at hb
        rcases hb with rfl | rfl | rfl
        · exact le_refl _
        · exact le_trans h.lower.cols hc
        · exact le_trans h.upper.cols hc
      · intro b hb _
        simp only [List.mem_cons, List.not_mem_nil, or_false] at hb
        by_cases hbc : b = p.con
        · left; rw [hbc]
        · right
          refine ⟨p.con, by simp, ?_, rfl, fun h => hbc h.symm⟩
          have := hs.rows; have := hs.pos; omega
      · exact ⟨p.con, by simp, by have := hs.rows; have := hs.pos; omega⟩
    · rename_i h0
      simp only [Option.some.injEq] at hM
      have hl : (canonicalOrder a.lower).ents = [] := List.length_eq_zero_iff.1 (by omega)
      have hu : (canonicalOrder a.upper).ents = [] := List.length_eq_zero_iff.1 (by omega)
      rw [← hM]
      simp [stackEnts, negEnts, expandEq, hl, hu, unitEnts]
  refine ⟨?_, rfl, rfl, rfl, rfl, rfl, rfl, rfl, rfl, rfl⟩
  simp only [hMe]
  rfl

/-- The rows of the dual's matrix. -/
theorem stack3_rows {n : Nat} {f : Flags} {a : Args K} (_h : ArgsOk n a) {p : Prep K} (hs : PrepSpec n f a p) (x : Nat → K) :
    (∀ i, i < p.con.rows → rowAt (stackEnts 0 [p.con, expandEq (canonicalOrder a.lower), negEnts (expandEq (canonicalOrder a.upper))]) x i =
      rowAt p.con.ents x i) ∧
    (∀ k, k < a.lower.ents.length → rowAt (stackEnts 0 [p.con, expandEq (canonicalOrder a.lower), negEnts (expandEq (canonicalOrder a.upper))]) x
      (p.con.rows + k) = x (vecCol a.lower k)) ∧
    (∀ k, k < a.upper.ents.length → rowAt (stackEnts 0 [p.con, expandEq (canonicalOrder a.lower), negEnts (expandEq (canonicalOrder a.upper))]) x
      (p.con.rows + a.lower.ents.length + k) = - x (vecCol a.upper k)) := by
  have hL := canonicalOrder_length a.lower
  have hU := canonicalOrder_length a.upper
  have hneg : ∀ (A : Coo K) i, rowAt (negEnts A).ents x i = - rowAt A.ents x i := by
    intro A i
    simp only [negEnts]
    generalize A.ents = l
    induction l with
    | nil => simp [rowAt_nil]
    | cons e l ih =>
      rw [List.map_cons, rowAt_cons, rowAt_cons, ih]
      by_cases he : e.1 = i <;> simp [he, add_comm]
  have key : ∀ i, rowAt (stackEnts 0 [p.con, expandEq (canonicalOrder a.lower), negEnts (expandEq (canonicalOrder a.upper))]) x i =
      rowAt p.con.ents x i + ((if p.con.rows ≤ i then rowAt (expandEq (canonicalOrder a.lower)).ents x (i - p.con.rows) else 0) +
        (if p.con.rows + a.lower.ents.length ≤ i then
          - rowAt (expandEq (canonicalOrder a.upper)).ents x (i - (p.con.rows + a.lower.ents.length)) else 0)) := by
    intro i
    have hr : (expandEq (canonicalOrder a.lower)).rows = a.lower.ents.length := hL
    simp only [stackEnts, List.append_nil, Nat.zero_add, hr]
    rw [rowAt_append, rowAt_append, rowAt_shift, rowAt_shift, rowAt_shift, hneg]
    simp
  have hout : ∀ i, p.con.rows ≤ i → rowAt p.con.ents x i = 0 := fun i hi => rowAt_out (fun e he => (hs.inRange e he).1) x hi
  refine ⟨?_, ?_, ?_⟩
  · intro i hi
    rw [key, if_neg (by omega), if_neg (by omega)]
    ring
  · intro k hk
    rw [key, hout _ (by omega), if_pos (by omega), if_neg (by omega), Nat.add_sub_cancel_left]
    show 0 + (rowAt (unitEnts _) x k + 0) = _
    rw [unitEnts_eq, rowAt_diag, if_pos (by rw [List.length_map, hL]; exact hk)]
    simp [vecCol]
  · intro k hk
    rw [key, hout _ (by omega), if_pos (by omega), if_pos (by omega)]
    have e1 : p.con.rows + a.lower.ents.length + k - p.con.rows = a.lower.ents.length + k := by omega
    rw [e1, Nat.add_sub_cancel_left]
    show 0 + (rowAt (unitEnts _) x _ + - rowAt (unitEnts _) x k) = _
    rw [unitEnts_eq, unitEnts_eq, rowAt_diag, rowAt_diag, if_neg (by rw [List.length_map, hL]; omega), if_pos (by rw [List.length_map, hU]; exact hk)]
    simp [vecCol]

theorem stack3_inRange {n : Nat} {f : Flags} {a : Args K} (h : ArgsOk n a) {p : Prep K} (hs : PrepSpec n f a p) :
    ∀ e ∈ stackEnts 0 [p.con, expandEq (canonicalOrder a.lower), negEnts (expandEq (canonicalOrder a.upper))],
      e.1 < p.con.rows + (a.lower.ents.length + a.upper.ents.length) ∧ e.2.1 < p.con.cols := by
  have hL := canonicalOrder_length a.lower
  have hU := canonicalOrder_length a.upper
  have hc : n ≤ p.con.cols := by rw [hs.cols]; split <;> omega
  intro e he
  have hr : (expandEq (canonicalOrder a.lower)).rows = a.lower.ents.length := hL
  simp only [stackEnts, List.append_nil, Nat.zero_add, hr, List.mem_append, List.mem_map] at he
  rcases he with ⟨d, hd, rfl⟩ | ⟨d, hd, rfl⟩ | ⟨d, hd, rfl⟩
  · have := hs.inRange d hd
    simp only [Nat.add_zero]; omega
  · have := unitEnts_inRange (cols_lt h.lower) d hd
    rw [List.length_map, hL] at this
    simp only; omega
  · simp only [negEnts, List.mem_map] at hd
    obtain ⟨c, hc', rfl⟩ := hd
    have := unitEnts_inRange (cols_lt h.upper) c hc'
    rw [List.length_map, hU] at this
    simp only; omega

variable [IsStrictOrderedRing K]

/-- Every dual-feasible `y` bounds the right-hand side applied to `x` by the combination of the rows. -/
theorem dual_core {n : Nat} {f : Flags} {a : Args K} (h : ArgsOk n a) {p : Prep K} (hs : PrepSpec n f a p) {t : Task K}
    (ht : dualTask f p = some t) {y : Nat → K} (hy : t.Feasible y) {x : Nat → K}
    (hx : f.effNonneg = true → ∀ j, j < p.con.cols → 0 ≤ x j) :
    ∑ j ∈ Finset.range p.con.cols, t.blc.getD j 0 * x j ≤
      ∑ i ∈ Finset.range p.con.rows, y i * rowAt p.con.ents x i +
      (∑ k ∈ Finset.range a.lower.ents.length, y (p.con.rows + k) * x (vecCol a.lower k) -
       ∑ k ∈ Finset.range a.upper.ents.length, y (p.con.rows + a.lower.ents.length + k) * x (vecCol a.upper k)) := by
  obtain ⟨he, hnc, _, _, hbu, hbk, _⟩ := dual_matrix h hs ht
  obtain ⟨hr1, hr2, hr3⟩ := stack3_rows h hs x
  have hin := stack3_inRange h hs
  have h1 : ∑ j ∈ Finset.range p.con.cols, t.blc.getD j 0 * x j ≤
      ∑ j ∈ Finset.range p.con.cols, rowAt t.ents y j * x j := by
    apply Finset.sum_le_sum
    intro j hj
    have hj' := Finset.mem_range.1 hj
    have hc := hy.con j (by rw [hnc]; exact hj')
    rw [hbk, getD_rep hj'] at hc
    by_cases hnn : f.effNonneg = true
    · rw [if_pos hnn] at hc
      exact mul_le_mul_of_nonneg_right hc (hx hnn j hj')
    · rw [if_neg hnn] at hc
      simp only [sat] at hc
      rw [hc]
  have h2 : ∑ j ∈ Finset.range p.con.cols, rowAt t.ents y j * x j =
      ∑ i ∈ Finset.range (p.con.rows + (a.lower.ents.length + a.upper.ents.length)),
        y i * rowAt (stackEnts 0 [p.con, expandEq (canonicalOrder a.lower), negEnts (expandEq (canonicalOrder a.upper))]) x i := by
    rw [he, bil_cols (fun e he => (hin e he).2), bil_rows (fun e he => (hin e he).1)]
  rw [h2, Finset.sum_range_add, Finset.sum_range_add] at h1
  refine le_trans h1 (le_of_eq ?_)
  congr 1
  · exact Finset.sum_congr rfl fun i hi => by rw [hr1 i (Finset.mem_range.1 hi)]
  · rw [sub_eq_add_neg, ← Finset.sum_neg_distrib]
    congr 1
    · exact Finset.sum_congr rfl fun k hk => by rw [hr2 k (Finset.mem_range.1 hk)]
    · refine Finset.sum_congr rfl fun k hk => ?_
      rw [← Nat.add_assoc, hr3 k (Finset.mem_range.1 hk)]
      ring

/-- Signs of the multipliers of a feasible point of the dual task. -/
theorem dual_signs {n : Nat} {f : Flags} {a : Args K} (h : ArgsOk n a) {p : Prep K} (hs : PrepSpec n f a p) {t : Task K}
    (ht : dualTask f p = some t) {y : Nat → K} (hy : t.Feasible y) :
    (∀ i, i < a.ineq.rows → y i ≤ 0) ∧ (∀ k, k < a.lower.ents.length + a.upper.ents.length → y (p.con.rows + k) ≤ 0) ∧
    (f.relaxKnown = true → ∀ k, k < a.known.ents.length → y (a.ineq.rows + a.eq.rows + k) ≤ 0 ∧
      0 ≤ y (a.ineq.rows + a.eq.rows + a.known.ents.length + k)) := by
  obtain ⟨_, _, hnv, _, _, _, hbk, hbl, hbu, _⟩ := dual_matrix h hs ht
  have hrows := hs.rows
  have hnE := hs.nEq
  have hv := hy.var
  rw [hnv, hbk, hbu, hbl, hs.nIneq, hs.nKnown, hnE] at hv
  have hz : ∀ i, (List.replicate (p.con.rows + (a.lower.ents.length + a.upper.ents.length)) (0 : K)).getD i 0 = 0 := by
    intro i
    rw [List.getD_eq_getElem?_getD, List.getElem?_replicate]
    split <;> rfl
  refine ⟨?_, ?_, ?_⟩
  · intro i hi
    have := hv i (by split at hrows <;> omega)
    rw [hz, List.append_assoc, List.append_assoc, List.getD_append _ _ _ _ (by simpa using hi), getD_rep hi] at this
    exact this
  · intro k hk
    have := hv (p.con.rows + k) (by omega)
    rw [hz, List.getD_append_right _ _ _ _ (by rw [hrows]; split <;> simp <;> omega)] at this
    rw [getD_rep (by rw [hrows]; split <;> simp <;> omega)] at this
    exact this
  · intro hrk k hk
    rw [if_pos hrk] at hrows
    simp only [hrk, if_true] at hv
    constructor
    · have := hv (a.ineq.rows + a.eq.rows + k) (by omega)
      rw [hz, List.getD_append _ _ _ _ (by simp; omega), List.getD_append_right _ _ _ _ (by simp)] at this
      rw [List.getD_append _ _ _ _ (by simp; omega), getD_rep (by simp; omega)] at this
      exact this
    · have := hv (a.ineq.rows + a.eq.rows + a.known.ents.length + k) (by omega)
      rw [hz, List.getD_append _ _ _ _ (by simp; omega), List.getD_append_right _ _ _ _ (by simp; omega)] at this
      rw [List.getD_append_right _ _ _ _ (by simp; omega), getD_rep (by simp; omega)] at this
      exact this

/-- The rows of the constraints contribute at most the known values' terms. -/
theorem rows_bound {n : Nat} {f : Flags} {a : Args K} {p : Prep K} (hs : PrepSpec n f a p) {y : Nat → K}
    (hy : ∀ i, i < a.ineq.rows → y i ≤ 0) {x : Nat → K} (hc : Causal a x) (hrk : f.relaxKnown = false) (hri : f.relaxIneq = false) :
    ∑ i ∈ Finset.range p.con.rows, y i * rowAt p.con.ents x i ≤
      ∑ k ∈ Finset.range a.known.ents.length, y (a.ineq.rows + a.eq.rows + k) * x (knownCol a k) := by
  have hrows := hs.rows
  rw [hrk] at hrows
  simp only [Bool.false_eq_true, if_false] at hrows
  rw [hrows, Finset.sum_range_add, Finset.sum_range_add]
  have h1 : ∑ i ∈ Finset.range a.ineq.rows, y i * rowAt p.con.ents x i ≤ 0 := by
    apply Finset.sum_nonpos
    intro i hi
    have hi' := Finset.mem_range.1 hi
    rw [hs.ineqRow x i hi', hri]
    have := hc.ineq i hi'
    simp only [Bool.false_eq_true, if_false, add_zero]
    exact mul_nonpos_of_nonpos_of_nonneg (hy i hi') this
  have h2 : ∑ i ∈ Finset.range a.eq.rows, y (a.ineq.rows + i) * rowAt p.con.ents x (a.ineq.rows + i) = 0 := by
    apply Finset.sum_eq_zero
    intro i hi
    rw [hs.eqRow x i (Finset.mem_range.1 hi), hc.eq i (Finset.mem_range.1 hi), mul_zero]
  have h3 : ∑ k ∈ Finset.range a.known.ents.length, y (a.ineq.rows + a.eq.rows + k) * rowAt p.con.ents x (a.ineq.rows + a.eq.rows + k) =
      ∑ k ∈ Finset.range a.known.ents.length, y (a.ineq.rows + a.eq.rows + k) * x (knownCol a k) := by
    apply Finset.sum_congr rfl
    intro k hk
    rw [hs.knownRow hrk x k (Finset.mem_range.1 hk)]
  rw [h2, h3]
  linarith

end Verif.LpSolver

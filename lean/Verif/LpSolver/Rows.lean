import Verif.LpSolver.Lemmas
/-! The rows of the constraint matrix built by `prepare`. -/
namespace Verif.LpSolver
open Verif.Common

variable {K : Type} [Field K] [LinearOrder K]

/-- One entry in each of the rows `0..m-1`. -/
def diag (m : Nat) (c : Nat → Nat) (g : Nat → K) : List (Nat × Nat × K) := (List.range m).map fun i => (i, c i, g i)

theorem rowAt_diag (m : Nat) (c : Nat → Nat) (g : Nat → K) (x : Nat → K) (i : Nat) :
    rowAt (diag m c g) x i = if i < m then g i * x (c i) else 0 := by
  induction m with
  | zero => simp [diag, rowAt_nil]
  | succ m ih =>
    have : diag (m + 1) c g = diag m c g ++ [(m, c m, g m)] := by simp [diag, List.range_succ]
    rw [this, rowAt_append, ih, rowAt_cons, rowAt_nil]
    rcases lt_trichotomy i m with h | h | h
    · have h1 : m ≠ i := by omega
      have h2 : i < m + 1 := by omega
      simp [h, h1, h2]
    · subst h; simp
    · have h1 : m ≠ i := by omega
      have h2 : ¬ i < m + 1 := by omega
      have h3 : ¬ i < m := by omega
      simp [h1, h2, h3]

theorem unitEnts_eq (cols : List Nat) : (unitEnts cols : List (Nat × Nat × K)) = diag cols.length (fun i => cols.getD i 0) fun _ => 1 := by
  unfold unitEnts diag
  apply List.ext_getElem (by simp)
  intro i h1 h2
  have hi : i < cols.length := by simpa using h1
  simp [hi]

theorem relaxedKnown_ents (n : Nat) (cols : List Nat) :
    (relaxedKnown n cols : Coo K).ents = unitEnts (cols ++ cols) ++
      diag (cols.length * 2) (fun _ => n) fun i => if i < cols.length then 1 else -1 := by
  unfold relaxedKnown
  simp only
  have e1 : List.replicate (cols.length * 3) (1 : K) ++ List.replicate cols.length (-1) =
      List.replicate (cols.length * 2) 1 ++ (List.replicate cols.length 1 ++ List.replicate cols.length (-1)) := by
    rw [← List.append_assoc, ← List.replicate_add]
    congr 2
  rw [e1, List.zip_append (by simp; omega), List.zip_append (by simp; omega)]
  congr 1
  · unfold unitEnts
    apply List.ext_getElem
    · simp; omega
    · intro i h1 h2
      simp
  · unfold diag
    apply List.ext_getElem
    · simp; omega
    · intro i h1 h2
      simp only [List.getElem_zip, List.getElem_range, List.getElem_map, List.getElem_replicate, Prod.mk.injEq, true_and]
      rw [List.getElem_append]
      simp

theorem rowAt_out {A : Coo K} (h : ∀ e ∈ A.ents, e.1 < A.rows) (x : Nat → K) {i : Nat} (hi : A.rows ≤ i) : rowAt A.ents x i = 0 :=
  rowAt_zero fun e he => by have := h e he; omega

theorem rowAt_stack2 {A B : Coo K} (hA : ∀ e ∈ A.ents, e.1 < A.rows) (x : Nat → K) (i : Nat) :
    rowAt (stackEnts 0 [A, B]) x i = if i < A.rows then rowAt A.ents x i else rowAt B.ents x (i - A.rows) := by
  simp only [stackEnts, List.append_nil, Nat.zero_add]
  rw [rowAt_append, rowAt_shift, rowAt_shift]
  by_cases h : i < A.rows
  · have : ¬ A.rows ≤ i := by omega
    simp [h, this]
  · have h' : A.rows ≤ i := by omega
    simp [h, h', rowAt_out hA x h']

theorem stack2_inRange {A B : Coo K} {n : Nat} (hA : ∀ e ∈ A.ents, e.1 < A.rows ∧ e.2.1 < n) (hB : ∀ e ∈ B.ents, e.1 < B.rows ∧ e.2.1 < n) :
    ∀ e ∈ stackEnts 0 [A, B], e.1 < A.rows + B.rows ∧ e.2.1 < n := by
  intro e he
  simp only [stackEnts, List.append_nil, Nat.zero_add, List.mem_append, List.mem_map] at he
  rcases he with ⟨e', h', rfl⟩ | ⟨e', h', rfl⟩
  · have := hA e' h'; simp; omega
  · have := hB e' h'; simp; omega

/-- Column of the `k`-th known variable, in the order used by the solver. -/
def knownCol (a : Args K) (k : Nat) : Nat := ((canonicalOrder a.known).ents.map fun e => e.2.1).getD k 0
/-- Its value. -/
def knownVal (a : Args K) (k : Nat) : K := ((canonicalOrder a.known).ents.map fun e => e.2.2).getD k 0

theorem canonicalOrder_perm (A : Coo K) : (canonicalOrder A).ents.Perm A.ents := sortBy_perm _ _

theorem canonicalOrder_length (A : Coo K) : (canonicalOrder A).ents.length = A.ents.length := (canonicalOrder_perm A).length_eq

theorem knownCol_lt {n : Nat} {a : Args K} (h : ArgsOk n a) {k : Nat} (hk : k < a.known.ents.length) : knownCol a k < n := by
  unfold knownCol
  have hk' : k < ((canonicalOrder a.known).ents.map fun e => e.2.1).length := by rw [List.length_map, canonicalOrder_length]; exact hk
  rw [List.getD_eq_getElem _ _ hk']
  obtain ⟨e, he, heq⟩ := List.mem_map.1 (List.getElem_mem hk')
  rw [← heq]
  exact (h.known.inRange e ((canonicalOrder_perm _).mem_iff.1 he)).2

theorem known_iff {a : Args K} (x : Nat → K) : Known a x ↔ ∀ k, k < a.known.ents.length → x (knownCol a k) = knownVal a k := by
  unfold Known
  have hlen := canonicalOrder_length a.known
  constructor
  · intro h k hk
    rw [← hlen] at hk
    unfold knownCol knownVal
    rw [List.getD_eq_getElem _ _ (by simpa using hk), List.getD_eq_getElem _ _ (by simpa using hk), List.getElem_map, List.getElem_map]
    exact h _ ((canonicalOrder_perm _).mem_iff.1 (List.getElem_mem hk))
  · intro h e he
    obtain ⟨k, hk, hke⟩ := List.mem_iff_getElem.1 ((canonicalOrder_perm a.known).mem_iff.2 he)
    have := h k (by rw [← hlen]; exact hk)
    unfold knownCol knownVal at this
    rw [List.getD_eq_getElem _ _ (by simpa using hk), List.getD_eq_getElem _ _ (by simpa using hk), List.getElem_map, List.getElem_map, hke] at this
    exact this

/-- The rows of the matrix of constraints. -/
structure PrepSpec (n : Nat) (f : Flags) (a : Args K) (p : Prep K) : Prop where
  pos : a.ineq.rows + a.eq.rows ≠ 0
  rows : p.con.rows = a.ineq.rows + a.eq.rows + (if f.relaxKnown then a.known.ents.length * 2 else a.known.ents.length)
  cols : p.con.cols = if f.relaxed then n + 1 else n
  inRange : ∀ e ∈ p.con.ents, e.1 < p.con.rows ∧ e.2.1 < p.con.cols
  ineqRow : ∀ (x : Nat → K) (i : Nat), i < a.ineq.rows →
    rowAt p.con.ents x i = rowAt a.ineq.ents x i + (if f.relaxIneq then x n else 0)
  eqRow : ∀ (x : Nat → K) (i : Nat), i < a.eq.rows → rowAt p.con.ents x (a.ineq.rows + i) = rowAt a.eq.ents x i
  knownRow : f.relaxKnown = false → ∀ (x : Nat → K) (k : Nat), k < a.known.ents.length →
    rowAt p.con.ents x (a.ineq.rows + a.eq.rows + k) = x (knownCol a k)
  relaxedRow : f.relaxKnown = true → ∀ (x : Nat → K) (k : Nat), k < a.known.ents.length →
    rowAt p.con.ents x (a.ineq.rows + a.eq.rows + k) = x (knownCol a k) + x n ∧
    rowAt p.con.ents x (a.ineq.rows + a.eq.rows + a.known.ents.length + k) = x (knownCol a k) - x n
  b : p.b = List.replicate (a.ineq.rows + a.eq.rows) 0 ++
    (if f.relaxKnown then ((canonicalOrder a.known).ents.map fun e => e.2.2) ++ ((canonicalOrder a.known).ents.map fun e => e.2.2)
      else (canonicalOrder a.known).ents.map fun e => e.2.2)
  nIneq : p.nIneq = a.ineq.rows
  nEq : p.nEq = if f.relaxKnown then a.eq.rows else a.eq.rows + a.known.ents.length
  nKnown : p.nKnown = a.known.ents.length
  knownCols : p.knownCols = (canonicalOrder a.known).ents.map fun e => e.2.1
  objective : p.objective = if a.objective.cols = 0 then ⟨1, p.con.cols, []⟩ else canonicalOrder a.objective
  lower : p.lower = canonicalOrder a.lower
  upper : p.upper = canonicalOrder a.upper

theorem MatrixOk.empty {n : Nat} {A : Coo K} (h : MatrixOk n A) (h0 : A.rows = 0) : A.ents = [] := by
  rcases hE : A.ents with _ | ⟨e, l⟩
  · rfl
  · have := h.inRange e (by simp [hE]); omega

/-- The matrix of inequalities and equalities, when it has rows. -/
theorem base_eq {n : Nat} {A B : Coo K} (hA : MatrixOk n A) (hB : MatrixOk n B) (hne : A.rows + B.rows ≠ 0) :
    vstack [A, B] = some ⟨A.rows + B.rows, n, stackEnts 0 [A, B]⟩ := by
  have := vstack_some (bs := [A, B]) (n := n) (by
      intro b hb h0
      simp only [List.mem_cons, List.not_mem_nil, or_false] at hb
      rcases hb with rfl | rfl
      · exact hA.empty h0
      · exact hB.empty h0) (by
      intro b hb
      simp only [List.mem_cons, List.not_mem_nil, or_false] at hb
      rcases hb with rfl | rfl
      · exact hA.colsLe
      · exact hB.colsLe) (by
      intro b hb hr
      simp only [List.mem_cons, List.not_mem_nil, or_false] at hb
      left
      rcases hb with rfl | rfl
      · exact hA.cols.resolve_left hr
      · exact hB.cols.resolve_left hr) (by
      by_cases h : A.rows = 0
      · exact ⟨B, by simp, by omega⟩
      · exact ⟨A, by simp, h⟩)
  simpa using this

/-- Adding a block to a matrix with rows. -/
theorem vstack_below {A B : Coo K} (hr : A.rows ≠ 0) (hB : B.rows = 0 → B.ents = []) (hle : B.cols ≤ A.cols) :
    vstack [A, B] = some ⟨A.rows + B.rows, A.cols, stackEnts 0 [A, B]⟩ := by
  have := vstack_some (bs := [A, B]) (n := A.cols) (by
      intro b hb h0
      simp only [List.mem_cons, List.not_mem_nil, or_false] at hb
      rcases hb with rfl | rfl
      · exact absurd h0 hr
      · exact hB h0) (by
      intro b hb
      simp only [List.mem_cons, List.not_mem_nil, or_false] at hb
      rcases hb with rfl | rfl
      · exact le_refl _
      · exact hle) (by
      intro b hb _
      simp only [List.mem_cons, List.not_mem_nil, or_false] at hb
      by_cases hbA : b = A
      · left; rw [hbA]
      · right; exact ⟨A, by simp, hr, rfl, fun h => hbA h.symm⟩) ⟨A, by simp, hr⟩
  simpa using this

theorem unitEnts_inRange {cols : List Nat} {n : Nat} (h : ∀ c ∈ cols, c < n) :
    ∀ e ∈ (unitEnts cols : List (Nat × Nat × K)), e.1 < cols.length ∧ e.2.1 < n := by
  intro e he
  rw [unitEnts_eq] at he
  obtain ⟨i, hi, rfl⟩ := List.mem_map.1 he
  have hi' := List.mem_range.1 hi
  refine ⟨hi', ?_⟩
  simp only [List.getD_eq_getElem _ _ hi']
  exact h _ (List.getElem_mem hi')

theorem cols_lt {n : Nat} {v : Coo K} (h : VectorOk n v) : ∀ c ∈ (canonicalOrder v).ents.map (fun e => e.2.1), c < n := by
  intro c hc
  obtain ⟨e, he, rfl⟩ := List.mem_map.1 hc
  exact (h.inRange e ((canonicalOrder_perm v).mem_iff.1 he)).2

theorem prepare_spec {n : Nat} {f : Flags} {a : Args K} (h : ArgsOk n a) {p : Prep K} (hp : prepare f a = some p) : PrepSpec n f a p := by
  unfold prepare at hp
  simp only [Option.pure_def, Option.bind_eq_bind, Option.bind_eq_some_iff, Option.some.injEq] at hp
  obtain ⟨ineq, hineq, eq, heq, base, hbase, con, hcon, rfl⟩ := hp
  have h1 := dropZeroRows_eq h.pos h.ineq hineq
  have h2 := dropZeroRows_eq h.pos h.eq heq
  subst h1; subst h2
  have hne : a.ineq.rows + a.eq.rows ≠ 0 := by
    intro h0
    rw [vstack_none] at hbase
    · simp at hbase
    · intro b hb
      simp only [List.mem_cons, List.not_mem_nil, or_false] at hb
      rcases hb with rfl | rfl <;> omega
  rw [base_eq h.ineq h.eq hne, Option.some.injEq] at hbase
  have hbr : base.rows = a.ineq.rows + a.eq.rows := by rw [← hbase]
  have hbc : base.cols = n := by rw [← hbase]
  have hbrow : ∀ x i, rowAt base.ents x i = if i < a.ineq.rows then rowAt a.ineq.ents x i else rowAt a.eq.ents x (i - a.ineq.rows) := by
    intro x i
    rw [← hbase]
    exact rowAt_stack2 (fun e he => (h.ineq.inRange e he).1) x i
  have hbin : ∀ e ∈ base.ents, e.1 < base.rows ∧ e.2.1 < n := by
    rw [hbr, ← hbase]
    exact stack2_inRange h.ineq.inRange h.eq.inRange
  -- the matrix with the slack column
  obtain ⟨A, hA⟩ : ∃ A, A = if f.relaxIneq then addSlack a.ineq.rows base else base := ⟨_, rfl⟩
  rw [← hA] at hcon
  have hAr : A.rows = base.rows := by rw [hA]; split <;> rfl
  have hAc : A.cols = if f.relaxIneq then n + 1 else n := by
    rw [hA]; split <;> simp [addSlack, hbc]
  have hArow : ∀ x i, rowAt A.ents x i = rowAt base.ents x i + (if f.relaxIneq then (if i < a.ineq.rows then x n else 0) else 0) := by
    intro x i
    rw [hA]
    split
    · have := rowAt_diag a.ineq.rows (fun _ => base.cols) (fun _ => (1 : K)) x i
      unfold diag at this
      simp only [addSlack]
      rw [rowAt_append, this, hbc]
      simp
    · simp
  have hAin : ∀ e ∈ A.ents, e.1 < base.rows ∧ e.2.1 < A.cols := by
    intro e he
    rw [hA] at he
    rw [hAc]
    split at he
    · rename_i hr
      rw [if_pos hr]
      simp only [addSlack, List.mem_append, List.mem_map, List.mem_range] at he
      rcases he with he | ⟨i, hi, rfl⟩
      · have := hbin e he; omega
      · simp only; omega
    · rename_i hr
      rw [if_neg hr]
      exact hbin e he
  have hbne : base.rows ≠ 0 := by omega
  have hlen := canonicalOrder_length a.known
  have hkc := cols_lt h.known
  unfold addKnown at hcon
  by_cases hrk : f.relaxKnown = true
  · -- relaxed known values
    rw [if_pos hrk] at hcon
    obtain ⟨kv, hkv⟩ : ∃ kv : Coo K, kv = canonicalOrder (relaxedKnown base.cols ((canonicalOrder a.known).ents.map fun e => e.2.1)) := ⟨_, rfl⟩
    rw [← hkv] at hcon
    have hkvr : kv.rows = a.known.ents.length * 2 := by
      rw [hkv]; simp [canonicalOrder, relaxedKnown, (sortBy_perm _ _).length_eq]
    have hkvc : kv.cols = n + 1 := by rw [hkv]; simp [canonicalOrder, relaxedKnown, hbc]
    have hkvp : kv.ents.Perm (unitEnts (((canonicalOrder a.known).ents.map fun e => e.2.1) ++ ((canonicalOrder a.known).ents.map fun e => e.2.1)) ++
        diag (((canonicalOrder a.known).ents.map fun e => e.2.1).length * 2) (fun _ => n)
          fun i => if i < ((canonicalOrder a.known).ents.map fun e => e.2.1).length then 1 else -1) := by
      rw [hkv, ← hbc, ← relaxedKnown_ents]
      exact canonicalOrder_perm _
    have hkvin : ∀ e ∈ kv.ents, e.1 < kv.rows ∧ e.2.1 < n + 1 := by
      intro e he
      rw [hkvr]
      rcases List.mem_append.1 (hkvp.mem_iff.1 he) with he | he
      · have := unitEnts_inRange (n := n) (cols := ((canonicalOrder a.known).ents.map fun e => e.2.1) ++ ((canonicalOrder a.known).ents.map fun e => e.2.1))
          (by intro c hc; rcases List.mem_append.1 hc with hc | hc <;> exact hkc c hc) e he
        simp only [List.length_append, List.length_map, hlen] at this
        omega
      · obtain ⟨i, hi, rfl⟩ := List.mem_map.1 he
        have := List.mem_range.1 hi
        simp only [List.length_map, hlen] at this
        simp only
        omega
    have hkv0 : kv.rows = 0 → kv.ents = [] := by
      intro h0
      rcases hE : kv.ents with _ | ⟨e, l⟩
      · rfl
      · have := hkvin e (by simp [hE]); omega
    rw [vstack_below (A := ⟨base.rows, base.cols + 1, A.ents⟩) hbne hkv0 (by simp only; omega), Option.some.injEq] at hcon
    have hconrow : ∀ x i, rowAt con.ents x i = if i < base.rows then rowAt A.ents x i else rowAt kv.ents x (i - base.rows) := by
      intro x i
      rw [← hcon]
      exact rowAt_stack2 (A := ⟨base.rows, base.cols + 1, A.ents⟩) (fun e he => (hAin e he).1) x i
    have hcr : con.rows = base.rows + kv.rows := by rw [← hcon]
    have hcc : con.cols = n + 1 := by rw [← hcon]; simp [hbc]
    have hkvrow : ∀ x i, i < a.known.ents.length * 2 → rowAt kv.ents x i =
        x ((((canonicalOrder a.known).ents.map fun e => e.2.1) ++ ((canonicalOrder a.known).ents.map fun e => e.2.1)).getD i 0) +
        (if i < a.known.ents.length then x n else - x n) := by
      intro x i hi
      rw [rowAt_perm hkvp, rowAt_append, unitEnts_eq, rowAt_diag, rowAt_diag]
      rw [if_pos (by simp [hlen]; omega), if_pos (by simp [hlen]; omega)]
      simp only [List.length_map, hlen]
      split <;> simp
    constructor
    · exact hne
    · simp only [hcr, hkvr, hbr, hrk, if_true]
    · simp [hcc, Flags.relaxed, hrk]
    · intro e he
      simp only at he ⊢
      rw [hcr, hcc]
      rw [← hcon] at he
      have hAin' : ∀ e ∈ A.ents, e.1 < base.rows ∧ e.2.1 < n + 1 := by
        intro e he
        have := hAin e he
        rw [hAc] at this
        split at this <;> omega
      exact stack2_inRange (A := ⟨base.rows, base.cols + 1, A.ents⟩) hAin' hkvin e he
    · intro x i hi
      simp only
      rw [hconrow, if_pos (by omega), hArow, hbrow, if_pos hi]
      simp [hi]
    · intro x i hi
      simp only
      rw [hconrow, if_pos (by omega), hArow, hbrow, if_neg (by omega)]
      have : ¬ (a.ineq.rows + i < a.ineq.rows) := by omega
      simp [this]
    · intro hf; simp [hrk] at hf
    · intro _ x k hk
      simp only
      rw [hconrow, hconrow, if_neg (by omega), if_neg (by omega)]
      have e1 : a.ineq.rows + a.eq.rows + k - base.rows = k := by omega
      have e2 : a.ineq.rows + a.eq.rows + a.known.ents.length + k - base.rows = a.known.ents.length + k := by omega
      rw [e1, e2, hkvrow x k (by omega), hkvrow x _ (by omega)]
      have hl : ((canonicalOrder a.known).ents.map fun e => e.2.1).length = a.known.ents.length := by rw [List.length_map, hlen]
      rw [List.getD_append _ _ _ _ (by omega), List.getD_append_right _ _ _ _ (by omega), if_pos hk, if_neg (by omega), hl,
        Nat.add_sub_cancel_left]
      refine ⟨rfl, ?_⟩
      rw [← sub_eq_add_neg]
      rfl
    · simp [hbr]
    · rfl
    · simp [hrk]
    · simp [hlen]
    · rfl
    · rfl
    · rfl
    · rfl
  · -- known values as equalities
    rw [if_neg hrk] at hcon
    have hrk' : f.relaxKnown = false := by simpa using hrk
    have hkvr : (expandEq (canonicalOrder a.known)).rows = a.known.ents.length := hlen
    have hkvin : ∀ e ∈ (expandEq (canonicalOrder a.known)).ents, e.1 < (expandEq (canonicalOrder a.known)).rows ∧ e.2.1 < n := by
      intro e he
      have := unitEnts_inRange hkc e he
      rw [List.length_map] at this
      exact this
    have hkv0 : (expandEq (canonicalOrder a.known)).rows = 0 → (expandEq (canonicalOrder a.known)).ents = [] := by
      intro h0
      rcases hE : (expandEq (canonicalOrder a.known)).ents with _ | ⟨e, l⟩
      · rfl
      · have := hkvin e (by simp [hE]); omega
    have hkvc : (expandEq (canonicalOrder a.known)).cols ≤ n := h.known.cols
    rw [vstack_below (A := A) (by omega) hkv0 (by rw [hAc]; split <;> omega), Option.some.injEq] at hcon
    have hconrow : ∀ x i, rowAt con.ents x i = if i < base.rows then rowAt A.ents x i else rowAt (expandEq (canonicalOrder a.known)).ents x (i - base.rows) := by
      intro x i
      rw [← hcon, ← hAr]
      exact rowAt_stack2 (A := A) (fun e he => by rw [hAr]; exact (hAin e he).1) x i
    have hcr : con.rows = base.rows + a.known.ents.length := by rw [← hcon, ← hkvr, ← hAr]
    have hcc : con.cols = A.cols := by rw [← hcon]
    constructor
    · exact hne
    · simp only [hcr, hbr, hrk', if_false, Bool.false_eq_true]
    · simp only [hcc, hAc, Flags.relaxed, hrk', Bool.false_or]
    · intro e he
      simp only at he ⊢
      rw [hcr, hcc]
      rw [← hcon] at he
      have := stack2_inRange (A := A) (B := expandEq (canonicalOrder a.known)) (n := A.cols) (by rw [hAr]; exact hAin) (by
        intro e he
        have := hkvin e he
        refine ⟨this.1, ?_⟩
        rw [hAc]; split <;> omega) e he
      rw [hAr, hkvr] at this
      exact this
    · intro x i hi
      simp only
      rw [hconrow, if_pos (by omega), hArow, hbrow, if_pos hi]
      simp [hi]
    · intro x i hi
      simp only
      rw [hconrow, if_pos (by omega), hArow, hbrow, if_neg (by omega)]
      have : ¬ (a.ineq.rows + i < a.ineq.rows) := by omega
      simp [this]
    · intro _ x k hk
      simp only
      rw [hconrow, if_neg (by omega)]
      have e1 : a.ineq.rows + a.eq.rows + k - base.rows = k := by omega
      rw [e1]
      show rowAt (unitEnts _) x k = _
      rw [unitEnts_eq, rowAt_diag, if_pos (by rw [List.length_map, hlen]; exact hk), one_mul]
      rfl
    · intro hf; simp [hrk] at hf
    · simp [hbr, hrk']
    · rfl
    · simp [hrk', hlen]
    · simp [hlen]
    · rfl
    · rfl
    · rfl
    · rfl

end Verif.LpSolver

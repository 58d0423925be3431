import Verif.LpSolver.Relax
import Verif.CollinsGisin.ProblemProps
/-!
C29 and C30 for the linear programs of inflation problems: the rows of `minimal_sparse_equalities` and
`minimal_sparse_inequalities` passed to the solver.
-/
namespace Verif.LpSolver
open Verif.Common Verif.CollinsGisin Verif.Scenario
open Verif.Symmetry (lexorderSymmetries)
open Verif.Orbits

variable {K : Type} [Field K] [LinearOrder K]

/-- `coo_array((data, (row, col)), shape=(nof_rows, n_columns))`, InflationLP.py 1436-1444, 1504-1512, for a list of sparse rows. -/
def rowsCoo (n : Nat) (rows : List (List (Int × Nat))) : Coo K :=
  ⟨rows.length, n, (rows.mapIdx fun i row => row.map fun t => (i, t.2, (t.1 : K))).flatten⟩

theorem rowAt_rowsCoo (n : Nat) (rows : List (List (Int × Nat))) (x : Nat → K) {i : Nat} (hi : i < rows.length) :
    rowAt (rowsCoo n rows : Coo K).ents x i = rowValue x (rows[i]'hi) := by
  have key : ∀ (rows : List (List (Int × Nat))) (k i : Nat) (hi : i < rows.length),
      rowAt ((rows.mapIdx fun j row => row.map fun t => (k + j, t.2, (t.1 : K))).flatten) x (k + i) = rowValue x (rows[i]'hi) := by
    intro rows
    induction rows with
    | nil => intro k i hi; simp at hi
    | cons row rows ih =>
      intro k i hi
      rw [List.mapIdx_cons, List.flatten_cons, rowAt_append]
      have hsame : ∀ l : List (Int × Nat), rowAt (l.map fun t => (k + 0, t.2, (t.1 : K))) x (k + i) = if i = 0 then rowValue x l else 0 := by
        intro l
        induction l with
        | nil => simp [rowAt_nil, rowValue]
        | cons t l ih =>
          rw [List.map_cons, rowAt_cons, ih]
          by_cases hi0 : i = 0
          · simp [hi0, rowValue]
          · simp [hi0, Ne.symm hi0]
      rw [hsame]
      have hshift : (rows.mapIdx fun j row => row.map fun t => (k + (j + 1), t.2, (t.1 : K))) =
          rows.mapIdx fun j row => row.map fun t => (k + 1 + j, t.2, (t.1 : K)) := by
        apply List.mapIdx_eq_mapIdx_iff.2
        intro j hj
        apply List.map_congr_left
        intro t _
        have : k + (j + 1) = k + 1 + j := by omega
        rw [this]
      rw [hshift]
      rcases Nat.eq_zero_or_pos i with rfl | hpos
      · rw [if_pos rfl]
        have : rowAt ((rows.mapIdx fun j row => row.map fun t => (k + 1 + j, t.2, (t.1 : K))).flatten) x (k + 0) = 0 := by
          unfold rowAt
          have : (((rows.mapIdx fun j row => row.map fun t => (k + 1 + j, t.2, (t.1 : K))).flatten).filter fun e => e.1 == k + 0) = [] := by
            rw [List.filter_eq_nil_iff]
            intro e he
            obtain ⟨l, hl, hel⟩ := List.mem_flatten.1 he
            obtain ⟨j, hj, rfl⟩ := List.mem_mapIdx.1 hl
            obtain ⟨t, _, rfl⟩ := List.mem_map.1 hel
            simp
            omega
          rw [this]; rfl
        rw [this, add_zero]
        rfl
      · obtain ⟨j, rfl⟩ : ∃ j, i = j + 1 := ⟨i - 1, by omega⟩
        have e1 : k + (j + 1) = k + 1 + j := by omega
        rw [if_neg (by omega), zero_add, e1, ih (k + 1) j (by simpa using hi)]
        rfl
  have := key rows 0 i hi
  simpa [rowsCoo] using this

theorem rowsCoo_ok {n : Nat} {rows : List (List (Int × Nat))} (h : ∀ row ∈ rows, ∀ t ∈ row, t.2 < n) : MatrixOk n (rowsCoo n rows : Coo K) where
  inRange := by
    intro e he
    obtain ⟨l, hl, hel⟩ := List.mem_flatten.1 he
    obtain ⟨i, hi, rfl⟩ := List.mem_mapIdx.1 hl
    obtain ⟨t, ht, rfl⟩ := List.mem_map.1 hel
    exact ⟨hi, h _ (List.getElem_mem hi) t ht⟩
  cols := .inr rfl
  colsLe := le_refl _

variable [IsStrictOrderedRing K]

/-- The causal constraints of the linear program of a problem with the minimal equalities and inequalities. -/
def inflationArgs (objective known lower upper : Coo K) (n : Nat) (eqs ineqs : List (List (Int × Nat))) : Args K :=
  ⟨objective, known, rowsCoo n ineqs, rowsCoo n eqs, lower, upper⟩

omit [IsStrictOrderedRing K] in
theorem causal_rows {objective known lower upper : Coo K} {n : Nat} {eqs ineqs : List (List (Int × Nat))} (x : Nat → K) :
    Causal (inflationArgs objective known lower upper n eqs ineqs) x ↔
      (∀ row ∈ eqs, rowValue x row = 0) ∧ (∀ row ∈ ineqs, 0 ≤ rowValue x row) := by
  constructor
  · rintro ⟨h1, h2⟩
    constructor
    · intro row hrow
      obtain ⟨i, hi, rfl⟩ := List.getElem_of_mem hrow
      rw [← rowAt_rowsCoo n]
      exact h2 i hi
    · intro row hrow
      obtain ⟨i, hi, rfl⟩ := List.getElem_of_mem hrow
      rw [← rowAt_rowsCoo n]
      exact h1 i hi
  · rintro ⟨h1, h2⟩
    constructor
    · intro i hi
      exact (rowAt_rowsCoo n ineqs x hi).symm ▸ h2 _ (List.getElem_mem hi)
    · intro i hi
      exact (rowAt_rowsCoo n eqs x hi).symm ▸ h1 _ (List.getElem_mem hi)

/-- The events of the columns. -/
def columnsOf (S : Scenario) (D : DagInput) (anyNonclassical : Bool) (hasChildren : Nat → Bool) (force symReq : Bool) : List (List Bool) :=
  representatives symReq (lexorderSymmetries S)
    (rawMonomials S.lexorder.length (groupsOf S hasChildren force) (templateAdj S D anyNonclassical))

/-- `p` is a non-negative behaviour of the problem (invariant under relabellings of the copies, when symmetrising). -/
def IsBehaviour (S : Scenario) (D : DagInput) (anyNonclassical : Bool) (hasChildren : Nat → Bool) (force symReq : Bool) (p : List Bool → K) : Prop :=
  Marginalises S.lexorder.length (blocksOf (groupsOf S hasChildren force)) (templateAdj S D anyNonclassical) p ∧
  Nonneg S.lexorder.length (blocksOf (groupsOf S hasChildren force)) (templateAdj S D anyNonclassical) p ∧
  (symReq = true → Invariant S.lexorder.length (lexorderSymmetries S) p)

/-- **C30, why dropping the default non-negativity is harmless for inflation problems**: the rows imply that all columns are
non-negative. -/
theorem C30_inflation_rows_imply_nonneg (S : Scenario) (D : DagInput) (hout : ∀ p, p < S.nParties → 1 ≤ S.outcomes p)
    (hmeas : S.measKeys ≠ []) (anyNonclassical : Bool) (hasChildren : Nat → Bool) (force symReq : Bool)
    {eqs ineqs : List (List (Int × Nat))}
    (he : equalities S.lexorder.length (groupsOf S hasChildren force) (templateAdj S D anyNonclassical) symReq (lexorderSymmetries S) = some eqs)
    (hi : inequalities S.lexorder.length (groupsOf S hasChildren force) (templateAdj S D anyNonclassical) symReq (lexorderSymmetries S) = some ineqs)
    {x : Nat → K} (h1 : ∀ row ∈ eqs, rowValue x row = 0) (h2 : ∀ row ∈ ineqs, 0 ≤ rowValue x row) :
    ∀ j, j < (columnsOf S D anyNonclassical hasChildren force symReq).length → 0 ≤ x j := by
  obtain ⟨eqs', ineqs', he', hi', h⟩ := C28_every_problem (K := K) S D hout hmeas anyNonclassical hasChildren force symReq
  rw [he] at he'
  rw [hi] at hi'
  simp only [Option.some.injEq] at he' hi'
  subst he'; subst hi'
  obtain ⟨p, _, hpos, _, hc⟩ := (h x).1 ⟨h1, h2⟩
  intro j hj
  rw [hc j hj]
  have hmem : (columnsOf S D anyNonclassical hasChildren force symReq).getD j [] ∈ rawMonomials S.lexorder.length
      (groupsOf S hasChildren force) (templateAdj S D anyNonclassical) := by
    rw [List.getD_eq_getElem _ _ hj]
    exact representatives_mem (List.getElem_mem hj)
  obtain ⟨e, hev, _, heq⟩ := (mem_rawMonomials (blocksOk_groupsOf S hout hasChildren force) (templateAdj_symm S D anyNonclassical) _).1 hmem
  show 0 ≤ p ((columnsOf S D anyNonclassical hasChildren force symReq).getD j [])
  rw [heq]
  exact hpos e hev

/-- **C29 and C30 for every inflation problem.** The values `x` of the columns solve the linear program given to the solver (known
values, bounds, default non-negativity) exactly when they are the probabilities that a non-negative behaviour of the problem assigns
to the columns, match the known values and respect the bounds. The plain form describes exactly these `x`; the form with relaxed
inequalities reaches a non-negative objective exactly when there is one. -/
theorem C29_inflation_problem (S : Scenario) (D : DagInput) (hout : ∀ p, p < S.nParties → 1 ≤ S.outcomes p)
    (hmeas : S.measKeys ≠ []) (anyNonclassical : Bool) (hasChildren : Nat → Bool) (force symReq : Bool)
    (objective known lower upper : Coo K) :
    let cols := columnsOf S D anyNonclassical hasChildren force symReq
    VectorOk cols.length known → VectorOk cols.length lower → VectorOk cols.length upper → VectorOk cols.length objective →
    (objective.cols = 0 ∨ objective.cols = cols.length) →
    ∃ eqs ineqs,
      equalities S.lexorder.length (groupsOf S hasChildren force) (templateAdj S D anyNonclassical) symReq (lexorderSymmetries S) = some eqs ∧
      inequalities S.lexorder.length (groupsOf S hasChildren force) (templateAdj S D anyNonclassical) symReq (lexorderSymmetries S) = some ineqs ∧
      (∀ t, buildTask ⟨false, true, false, false⟩ (inflationArgs objective known lower upper cols.length eqs ineqs) = some t →
        ∀ x, t.Feasible x ↔ ((∃ p, IsBehaviour S D anyNonclassical hasChildren force symReq p ∧ ∀ c, c < cols.length → x c = p (cols.getD c [])) ∧
          (∀ e ∈ known.ents, x e.2.1 = e.2.2) ∧ (∀ e ∈ lower.ents, e.2.2 ≤ x e.2.1) ∧ (∀ e ∈ upper.ents, x e.2.1 ≤ e.2.2))) ∧
      (∀ t, buildTask ⟨false, true, false, true⟩ (inflationArgs objective known lower upper cols.length eqs ineqs) = some t →
        ((∃ z, t.Feasible z ∧ 0 ≤ t.value z) ↔
          ∃ x : Nat → K, (∃ p, IsBehaviour S D anyNonclassical hasChildren force symReq p ∧ ∀ c, c < cols.length → x c = p (cols.getD c [])) ∧
          (∀ e ∈ known.ents, x e.2.1 = e.2.2) ∧ (∀ e ∈ lower.ents, e.2.2 ≤ x e.2.1) ∧ (∀ e ∈ upper.ents, x e.2.1 ≤ e.2.2))) := by
  intro cols hk hl hu ho hoc
  obtain ⟨eqs, ineqs, he, hi, h⟩ := C28_every_problem (K := K) S D hout hmeas anyNonclassical hasChildren force symReq
  have hpos : 0 < cols.length := by
    have hblk := blocksOk_groupsOf S hout hasChildren force
    have hsym := templateAdj_symm S D anyNonclassical
    have hemp : boolKey S.lexorder.length [] ∈ rawMonomials S.lexorder.length (groupsOf S hasChildren force) (templateAdj S D anyNonclassical) :=
      (mem_rawMonomials hblk hsym _).2 ⟨[], ⟨by simp, by simp⟩, by simp [CG], rfl⟩
    obtain ⟨i, hi, hieq⟩ := List.getElem_of_mem hemp
    show 0 < (representatives _ _ _).length
    unfold representatives npUniquePos
    rw [List.length_map, List.length_map]
    have hl := labels_length symReq (lexorderSymmetries S) (rawMonomials S.lexorder.length (groupsOf S hasChildren force) (templateAdj S D anyNonclassical))
    apply List.length_pos_of_mem
    exact mem_npUnique.2 (List.getElem_mem (show i < (labels symReq (lexorderSymmetries S) _).length by rw [hl]; exact hi))
  have hec := equalities_columns he
  have hic := inequalities_columns hi
  have hok : ArgsOk cols.length (inflationArgs objective known lower upper cols.length eqs ineqs) :=
    ⟨hpos, rowsCoo_ok hic, rowsCoo_ok hec, hk, hl, hu, ho, hoc⟩
  have himp : ∀ x, Causal (inflationArgs objective known lower upper cols.length eqs ineqs) x → ∀ j, j < cols.length → 0 ≤ x j := by
    intro x hx
    obtain ⟨g1, g2⟩ := (causal_rows x).1 hx
    exact C30_inflation_rows_imply_nonneg S D hout hmeas anyNonclassical hasChildren force symReq he hi g1 g2
  have hbeh : ∀ x, Causal (inflationArgs objective known lower upper cols.length eqs ineqs) x ↔
      ∃ p, IsBehaviour S D anyNonclassical hasChildren force symReq p ∧ ∀ c, c < cols.length → x c = p (cols.getD c []) := by
    intro x
    rw [causal_rows, h x]
    constructor
    · rintro ⟨p, a1, a2, a3, a4⟩; exact ⟨p, ⟨a1, a2, a3⟩, a4⟩
    · rintro ⟨p, ⟨a1, a2, a3⟩, a4⟩; exact ⟨p, a1, a2, a3, a4⟩
  have hsol : ∀ x, Solves cols.length true (inflationArgs objective known lower upper cols.length eqs ineqs) x ↔
      ((∃ p, IsBehaviour S D anyNonclassical hasChildren force symReq p ∧ ∀ c, c < cols.length → x c = p (cols.getD c [])) ∧
          (∀ e ∈ known.ents, x e.2.1 = e.2.2) ∧ (∀ e ∈ lower.ents, e.2.2 ≤ x e.2.1) ∧ (∀ e ∈ upper.ents, x e.2.1 ≤ e.2.2)) := by
    intro x
    rw [← hbeh x]
    constructor
    · rintro ⟨a1, a2, a3, _⟩; exact ⟨a1, a2, a3.1, a3.2⟩
    · rintro ⟨a1, a2, a3, a4⟩; exact ⟨a1, a2, ⟨a3, a4⟩, fun _ j hj _ => himp x a1 j hj⟩
  refine ⟨eqs, ineqs, he, hi, ?_, ?_⟩
  · intro t ht x
    rw [← hsol x]
    exact (C29_primal_task hok rfl rfl rfl ht).2.2.1 x
  · intro t ht
    rw [← C30_with_default_nonneg hok rfl rfl rfl ht fun x hx _ => himp x hx]
    exact exists_congr hsol

/-- Non-vacuity: for the two copies of one bit, with `p(0) = 1/2` known, the task exists. -/
example : (buildTask ⟨false, true, false, false⟩ (inflationArgs (K := ℚ) ⟨0, 0, []⟩ ⟨1, 3, [(0, 0, 1), (0, 1, 1 / 2)]⟩ ⟨0, 0, []⟩ ⟨0, 0, []⟩ 3 []
    [[(1, 2)], [(1, 1), (-1, 2)], [(1, 0), (-1, 1), (-1, 1), (1, 2)]])).isSome = true := by decide +kernel

end Verif.LpSolver

import Verif.Normalization.Lemmas
import Verif.SymMM.ColumnsProps
import Verif.Positivity.Lemmas
import Verif.Writers.LpLemmas
import Mathlib.Algebra.Ring.Prod
import Mathlib.Algebra.Star.Basic
/-
C41: the normalisation equalities of the SDP hold in every model with complete measurements.
-/
set_option linter.unusedSectionVars false
namespace Verif.Normalization
open Verif.State Verif.Common Verif.Scenario Verif.LpSolver Verif.CollinsGisin Verif.Canon Verif.Canon.Spec Verif.Positivity Verif.Symmetry Verif.SymMM

variable {R : Type*} [Ring R]

/-- **C41, columns.** If the operators of every measurement sum to the unit, then each discovered equality between columns is an equality between their operators. -/
theorem C41_column_equalities_hold (mask : List Bool) (groups cols : List (List Nat)) (eqs : List (Nat × List Nat))
    (h : discover mask (orthoDict groups) cols = some eqs) (n : Nat) (sums : List Nat) (he : (n, sums) ∈ eqs)
    (ρ : Nat → R) (hρ : Complete groups ρ) :
    n < cols.length ∧ (∀ j ∈ sums, j < cols.length) ∧
      op ρ (cols.getD n []) = (sums.map fun j => op ρ (cols.getD j [])).sum := by
  obtain ⟨m, hm, i, g, h1, _, h3, h4, h5⟩ := discover_mem h he
  obtain ⟨hg, _⟩ := orthoDict_get h3
  obtain ⟨h6, h7⟩ := forall₂_cols_sum (op ρ) h5
  refine ⟨(List.getElem?_eq_some_iff.1 h4).1, h7, ?_⟩
  rw [← h6, List.getD_eq_getElem?_getD, h4, Option.getD_some, op_sum (hρ g hg) m i h1, List.map_map]
  rfl

variable [StarRing R]

/-- **C41, moments.** If the entries of the moment matrix are the moments of an additive functional, then each normalisation equality between moment indices holds. -/
theorem C41_index_equalities_hold (mask : List Bool) (groups cols mm : List (List Nat)) (eqs : List (Nat × List Nat))
    (h : discover mask (orthoDict groups) cols = some eqs) (n : Nat) (sums : List Nat) (he : (n, sums) ∈ construct eqs mm)
    (ρ : Nat → R) (hρ : Complete groups ρ) (φ : R →+ ℝ) (val : Nat → ℝ) (hv : Represents mm cols ρ φ val) :
    val n = (sums.map val).sum := by
  obtain ⟨eq, heq, row, hrow, e1, e2, _⟩ := construct_mem he
  simp only at e1 e2
  obtain ⟨h1, h2, h3⟩ := C41_column_equalities_hold mask groups cols eqs h eq.1 eq.2 heq ρ hρ
  obtain ⟨i, hi, rfl⟩ := List.getElem_of_mem hrow
  have hi' : i < cols.length := hv.1 ▸ hi
  have hr : mm.getD i [] = mm[i] := by simp [List.getD_eq_getElem?_getD, hi]
  rw [(e2.map val).sum_eq, e1, List.map_map, ← hr, hv.2 i _ hi' h1, h3, ← List.sum_map_mul_left, map_list_sum, List.map_map]
  congr 1
  apply List.map_congr_left
  intro j hj
  exact (hv.2 i j hi' (h2 j hj)).symm

/-- The linear form of a moment equality. -/
def form (d : Dict Nat Int) (val : Nat → ℝ) : ℝ := (d.map fun t => (t.2 : ℝ) * val t.1).sum

theorem sum_neg (l : List Nat) (val : Nat → ℝ) : (l.map fun i => -(val i)).sum = -(l.map val).sum := by
  induction l with
  | nil => simp
  | cons a l ih => rw [List.map_cons, List.sum_cons, ih, List.map_cons, List.sum_cons, neg_add]

theorem fold_set (idxs : List Nat) (d : Dict Nat Int) (hn : idxs.Nodup) (hd : ∀ i ∈ idxs, i ∉ Dict.keys d) :
    idxs.foldl (fun d i => d.set i (-1)) d = d ++ idxs.map fun i => (i, (-1 : Int)) := by
  induction idxs generalizing d with
  | nil => simp
  | cons i idxs ih =>
    rw [List.nodup_cons] at hn
    have hset : ∀ (d : Dict Nat Int), i ∉ Dict.keys d → Dict.set d i (-1) = d ++ [(i, -1)] := by
      intro d
      induction d with
      | nil => intro _; rfl
      | cons t d ihd =>
        intro h
        simp only [Dict.keys, List.map_cons, List.mem_cons, not_or] at h
        have : ¬ t.1 = i := fun e => h.1 e.symm
        show (if t.1 = i then _ else _) = _
        rw [if_neg this, ihd h.2]
        rfl
    rw [List.foldl_cons, hset d (hd i (by simp)), ih _ hn.2]
    · simp
    · intro j hj
      simp only [Dict.keys, List.map_append, List.map_cons, List.map_nil, List.mem_append, List.mem_singleton, not_or]
      exact ⟨hd j (by simp [hj]), fun e => hn.1 (e ▸ hj)⟩

/-- **C41, constraints (partial).** When the measurement has at least two outcomes and no two of the moments in the equality coincide, the equality constraint handed to the solver says that the moment equals the sum.
Missing: without these hypotheses it is false, see `C41_equal_summands_wrong` and `C41_single_outcome_raises`. -/
theorem C41_moment_equality_partial (n : Nat) (sums : List Nat) (h2 : 2 ≤ sums.length) (hn : sums.Nodup) (hni : n ∉ sums) :
    ∃ d, momentEquality (n, sums) = some d ∧ ∀ val, form d val = 0 ↔ val n = (sums.map val).sum := by
  refine ⟨(n, 1) :: sums.map fun i => (i, -1), ?_, ?_⟩
  · unfold momentEquality
    rw [if_neg (by simp only; omega), fold_set _ _ hn]
    · rfl
    · intro i hi
      simp only [Dict.keys, List.map_cons, List.map_nil, List.mem_singleton]
      rintro rfl
      exact hni hi
  · intro val
    have : form ((n, 1) :: sums.map fun i => (i, -1)) val = val n - (sums.map val).sum := by
      simp only [form, List.map_cons, List.sum_cons, List.map_map, Int.cast_one, one_mul]
      have e : sums.map ((fun t : Nat × Int => (t.2 : ℝ) * val t.1) ∘ fun i => (i, (-1 : Int))) = sums.map fun i => -(val i) := by
        apply List.map_congr_left
        intro i _
        simp
      rw [e, sum_neg, sub_eq_add_neg]
    rw [this, sub_eq_zero]

/-- **C41, one outcome.** For a measurement with a single outcome the constraint cannot be built (`TypeError`). -/
theorem C41_single_outcome_raises (n s : Nat) : momentEquality (n, [s]) = none := rfl

/-- Words that are equal as operators have equal operators in every model. -/
theorem opEq_range {N : Nat} {comm ortho : Nat → Nat → Prop} (hN : 0 < N) {u v : List Nat} (h : OpEq N comm ortho u v) :
    (∀ x ∈ u, x < N) ↔ ∀ x ∈ v, x < N := by
  induction h with
  | refl w => exact Iff.rfl
  | symm _ ih => exact ih.symm
  | trans _ _ ih1 ih2 => exact ih1.trans ih2
  | swap u a b v _ =>
    simp only [List.mem_append, List.mem_cons]
    constructor <;> intro h x hx <;> exact h x (by tauto)
  | idem u a v =>
    simp only [List.mem_append, List.mem_cons]
    constructor <;> intro h x hx <;> exact h x (by tauto)
  | zero u a b v hr _ =>
    constructor
    · intro _ x hx
      rw [List.mem_singleton] at hx
      omega
    · intro _; exact hr

theorem opEq_op {N : Nat} {nc om : BMat} {ρ : Nat → R} (hN : 0 < N) (M : Model N nc om ρ) {u v : List Nat}
    (h : OpEq N (fun a b => nc a b = false) (fun a b => om a b = true) u v) (hu : ∀ x ∈ u, x < N) : op ρ u = op ρ v := by
  induction h with
  | refl w => rfl
  | symm h ih => exact (ih ((opEq_range hN h).2 hu)).symm
  | trans h1 _ ih1 ih2 => exact (ih1 hu).trans (ih2 ((opEq_range hN h1).1 hu))
  | swap u a b v hab =>
    have := M.comm a b (hu a (by simp)) (hu b (by simp)) hab
    simp only [op, List.map_append, List.map_cons, List.prod_append, List.prod_cons, ← mul_assoc (ρ a), ← mul_assoc (ρ b), this]
  | idem u a v =>
    simp only [op, List.map_append, List.map_cons, List.prod_append, List.prod_cons, ← mul_assoc (ρ a), (M.proj a).1]
  | zero u a b v hr hab =>
    have := M.ortho a b (hr a (by simp)) (hr b (by simp)) hab
    simp only [op, List.map_append, List.map_cons, List.prod_append, List.prod_cons, ← mul_assoc (ρ a), this, zero_mul, mul_zero,
      List.map_nil, List.prod_nil, mul_one, M.zero]

/-- The rows of the symmetrized matrix. -/
def symRows (n : Nat) (sym : List Nat) : List (List Nat) := (List.range n).map fun i => (List.range n).map fun j => sym.getD (i * n + j) 0

theorem symRows_getD (n : Nat) (sym : List Nat) {i j : Nat} (hi : i < n) (hj : j < n) :
    ((symRows n sym).getD i []).getD j 0 = sym.getD (i * n + j) 0 := by
  simp [symRows, List.getD_eq_getElem?_getD, hi, hj]

/-- **C41, every problem.** For every problem, every list of generating monomials in canonical order, every quantum model with complete measurements and every symmetric hermitian functional on it, the (symmetrized) moment matrix the code computes indexes the moments of the model, and all normalisation equalities found from it hold. -/
theorem C41_every_problem (S : Scenario) (D : DagInput) (q commuting : Bool) (cols : List (List Nat)) (mask : List Bool)
    (hc : ColsOk (S.lexorder.length + 1) (padMat (S.notcomm D.tbl q)) S.orthomat commuting cols)
    (ρ : Nat → R) (M : Verif.Normalization.Model (S.lexorder.length + 1) (padMat (S.notcomm D.tbl q)) S.orthomat ρ)
    (hρ : Complete (scenarioGroups S) ρ) (φ : R →+ ℝ) (hstar : ∀ x, φ (star x) = φ x)
    (hsym : ∀ r ∈ sdpSymmetries S, ∀ w, (∀ x ∈ w, x < S.lexorder.length + 1) → φ (op ρ (w.map (img r))) = φ (op ρ w)) :
    ∃ sym orbits repr, relaxationMatrix (padMat (S.notcomm D.tbl q)) S.orthomat commuting cols (sdpSymmetries S) = some (sym, orbits, repr) ∧
      ∃ val, Represents (symRows cols.length sym) cols ρ φ val ∧
        ∀ eqs, discover mask (orthoDict (scenarioGroups S)) cols = some eqs →
          ∀ n sums, (n, sums) ∈ construct eqs (symRows cols.length sym) → val n = (sums.map val).sum := by
  obtain ⟨sym, orbits, repr, e, hiff⟩ := C19_every_problem S D q commuting cols hc
  refine ⟨sym, orbits, repr, e, ?_⟩
  set N := S.lexorder.length + 1 with hN
  have hlen : sym.length = cols.length * cols.length := by
    have := C19_symmetrization (consistent (scenario_operatorList S D.tbl q) (scenario_symData S D q) hc)
    obtain ⟨s', o', r', e', hl, _⟩ := this
    unfold relaxationMatrix at e
    rw [e'] at e
    simp only [Option.some.injEq, Prod.mk.injEq] at e
    rw [← e.1, hl]
  have hlt : ∀ i, i < cols.length → ∀ x ∈ cols.getD i [], x < N := by
    intro i hi x hx
    refine hc.lt (cols.getD i []) ?_ x hx
    simp [List.getD_eq_getElem?_getD, hi]
  have hget : ∀ i, i < cols.length → cols[i]? = some (cols.getD i []) := by
    intro i hi
    simp [List.getD_eq_getElem?_getD, hi]
  have hcell : ∀ i j, i < cols.length → j < cols.length → i * cols.length + j < sym.length := by
    intro i j hi hj
    rw [hlen]
    calc i * cols.length + j < i * cols.length + cols.length := by omega
      _ = (i + 1) * cols.length := by rw [Nat.add_mul, Nat.one_mul]
      _ ≤ cols.length * cols.length := Nat.mul_le_mul_right _ hi
  have hprod : ∀ i j, star (op ρ (cols.getD i [])) * op ρ (cols.getD j []) = op ρ ((cols.getD i []).reverse ++ cols.getD j []) := by
    intro i j
    have : star (op ρ (cols.getD i [])) = op ρ (cols.getD i []).reverse := star_prod M.proj _
    rw [this]
    simp [op]
  have hword : ∀ i j, i < cols.length → j < cols.length → ∀ x ∈ (cols.getD i []).reverse ++ cols.getD j [], x < N := by
    intro i j hi hj x hx
    rcases List.mem_append.1 hx with hx | hx
    · exact hlt i hi x (List.mem_reverse.1 hx)
    · exact hlt j hj x hx
  have himg : ∀ r ∈ sdpSymmetries S, ∀ x < N, img r x < N := by
    intro r hr x hx
    exact (scenario_symData S D q).lt hr hx
  have same : ∀ i j k l, i < cols.length → j < cols.length → k < cols.length → l < cols.length →
      sym.getD (i * cols.length + j) 0 = sym.getD (k * cols.length + l) 0 →
      φ (star (op ρ (cols.getD i [])) * op ρ (cols.getD j [])) = φ (star (op ρ (cols.getD k [])) * op ρ (cols.getD l [])) := by
    intro i j k l hi hj hk hl h
    have h' : sym[i * cols.length + j]? = sym[k * cols.length + l]? := by
      rw [List.getElem?_eq_getElem (hcell i j hi hj), List.getElem?_eq_getElem (hcell k l hk hl)]
      simpa [List.getD_eq_getElem?_getD, hcell i j hi hj, hcell k l hk hl] using h
    obtain ⟨r, hr, _, h2⟩ := (hiff i j k l _ _ _ _ (hget i hi) (hget j hj) (hget k hk) (hget l hl)).1 h'
    have hw : ∀ x ∈ ((cols.getD i []).reverse ++ cols.getD j []).map (img r), x < N := by
      intro x hx
      obtain ⟨y, hy, rfl⟩ := List.mem_map.1 hx
      exact himg r hr y (hword i j hi hj y hy)
    rw [hprod, hprod, ← hsym r hr _ (hword i j hi hj)]
    rcases h2 with h2 | h2
    · rw [opEq_op (by omega) M h2 hw]
    · rw [opEq_op (by omega) M h2 hw, ← hstar]
      congr 1
      have : star (op ρ ((cols.getD l []).reverse ++ cols.getD k [])) = op ρ ((cols.getD l []).reverse ++ cols.getD k []).reverse :=
        star_prod M.proj _
      rw [this]
      simp
  classical
  let val : Nat → ℝ := fun v =>
    if h : ∃ ij : Nat × Nat, ij.1 < cols.length ∧ ij.2 < cols.length ∧ sym.getD (ij.1 * cols.length + ij.2) 0 = v then
      φ (star (op ρ (cols.getD h.choose.1 [])) * op ρ (cols.getD h.choose.2 [])) else 0
  have hrep : Represents (symRows cols.length sym) cols ρ φ val := by
    refine ⟨by simp [symRows], ?_⟩
    intro i j hi hj
    rw [symRows_getD _ _ hi hj]
    have hex : ∃ ij : Nat × Nat, ij.1 < cols.length ∧ ij.2 < cols.length ∧
        sym.getD (ij.1 * cols.length + ij.2) 0 = sym.getD (i * cols.length + j) 0 := ⟨(i, j), hi, hj, rfl⟩
    show (if h : _ then _ else _) = _
    rw [dif_pos hex]
    exact same _ _ _ _ hex.choose_spec.1 hex.choose_spec.2.1 hi hj hex.choose_spec.2.2
  refine ⟨val, hrep, ?_⟩
  intro eqs he n sums hm
  exact C41_index_equalities_hold mask (scenarioGroups S) cols _ eqs he n sums hm ρ hρ φ val hrep

/-- **C41, completeness (partial).** An equality proposed for a column reaches the solver if its columns, and the columns of all equalities proposed for the same column before it, are in the generating set.
Missing: an equality whose own columns are all present may be dropped, see `C41_break_drops_equality`. -/
theorem C41_equality_found_partial (mask : List Bool) (ortho : Dict Nat (List Nat)) (cols : List (List Nat)) (eqs : List (Nat × List Nat))
    (h : discover mask ortho cols = some eqs) (m : List Nat) (hm : m ∈ cols) (ps : List (List Nat × List (List Nat)))
    (hps : proposals mask ortho m = some ps) (k : Nat) (p : List Nat × List (List Nat)) (hk : ps[k]? = some p)
    (hall : ∀ k' ≤ k, ∀ p', ps[k']? = some p' → p'.1 ∈ cols ∧ ∀ w ∈ p'.2, w ∈ cols) :
    ∃ n sums, (n, sums) ∈ eqs ∧ cols[n]? = some p.1 ∧ List.Forall₂ (fun w (j : Nat) => cols[j]? = some w) p.2 sums := by
  have hlook : ∀ p' : List Nat × List (List Nat), p'.1 ∈ cols → (∀ w ∈ p'.2, w ∈ cols) → ∃ e, lookupEq (columnIndex cols) p' = some e := by
    intro p' h1 h2
    obtain ⟨n, hn⟩ := columnIndex_isSome h1
    obtain ⟨s, hs⟩ := mapM_of_forall (f := fun m => Dict.get (columnIndex cols) m) (l := p'.2) fun w hw => columnIndex_isSome (h2 w hw)
    exact ⟨(n, s), by unfold lookupEq; rw [hn]; simp [hs]⟩
  have hacc : ∀ (ps : List (List Nat × List (List Nat))) (k : Nat), ps[k]? = some p →
      (∀ k' ≤ k, ∀ p', ps[k']? = some p' → p'.1 ∈ cols ∧ ∀ w ∈ p'.2, w ∈ cols) →
      ∃ e ∈ acceptProposals (columnIndex cols) ps, lookupEq (columnIndex cols) p = some e := by
    intro ps
    induction ps with
    | nil => intro k hk; simp at hk
    | cons p0 ps ih =>
      intro k hk hall
      obtain ⟨a1, a2⟩ := hall 0 (by omega) p0 (by simp)
      obtain ⟨e0, he0⟩ := hlook p0 a1 a2
      unfold acceptProposals
      rw [he0]
      cases k with
      | zero =>
        simp only [List.getElem?_cons_zero, Option.some.injEq] at hk
        subst hk
        exact ⟨e0, by simp, he0⟩
      | succ k =>
        obtain ⟨e, h1, h2⟩ := ih k (by simpa using hk) fun k' hk' p' hp' => hall (k' + 1) (by omega) p' (by simpa using hp')
        exact ⟨e, List.mem_cons_of_mem _ h1, h2⟩
  obtain ⟨e, he, hpe⟩ := hacc ps k hk hall
  obtain ⟨h4, h5⟩ := lookupEq_some hpe
  refine ⟨e.1, e.2, ?_, h4, h5⟩
  unfold discover at h
  rw [Option.map_eq_some_iff] at h
  obtain ⟨r, hr, rfl⟩ := h
  obtain ⟨l, hl, hml⟩ := Verif.Writers.forall₂_left (mapM_forall₂ hr) hm
  rw [hps] at hml
  simp only [Option.map_some, Option.some.injEq] at hml
  subst hml
  exact List.mem_flatten.2 ⟨_, hl, he⟩

/-- The generating set `1, A₁, A₁B₀, A₁B₁` of two binary measurements `A` (ranks 1, 2) and `B` (ranks 3, 4). -/
def breakCols : List (List Nat) := [[], [2], [2, 3], [2, 4]]

/-- **C41, dropped equalities.** `A₁ = A₁B₀ + A₁B₁` relates three columns of the generating set but is not found, because the missing column `A₀B₁` of the equality tried before it ends the search (`break` instead of `continue`). -/
theorem C41_break_drops_equality : discover [false, false, true, false, true] (orthoDict [[1, 2], [3, 4]]) breakCols = some [] ∧
    ∀ (R : Type) [Ring R] (ρ : Nat → R), Complete [[1, 2], [3, 4]] ρ →
      op ρ (breakCols.getD 1 []) = ([2, 3].map fun j => op ρ (breakCols.getD j [])).sum := by
  refine ⟨by decide, ?_⟩
  intro R _ ρ h
  have := h [3, 4] (by simp)
  simp only [List.map_cons, List.map_nil, List.sum_cons, List.sum_nil, add_zero] at this
  simp [breakCols, op, ← mul_add, this]

/-- With the other column of the equality the code finds both. -/
example : discover [false, false, true, false, true] (orthoDict [[1, 2], [3, 4]]) [[], [2], [2, 3], [2, 4], [4], [1, 4]]
    = some [(4, [5, 3]), (1, [2, 3])] := by decide

/-- **C41, no row is forgotten.** For every column equality and every row none of whose summands vanishes, the equality between the summands of that row is present. -/
theorem C41_every_row_covered (colEqs : List (Nat × List Nat)) (mm : List (List Nat)) (eq : Nat × List Nat) (heq : eq ∈ colEqs)
    (row : List Nat) (hrow : row ∈ mm) (hnz : ∀ j ∈ eq.2, row.getD j 0 ≠ 0) :
    ∃ n sums, (n, sums) ∈ construct colEqs mm ∧ sums.Perm (eq.2.map fun j => row.getD j 0) := by
  have step_mono : ∀ (q : Nat × List Nat) (st : List (Nat × List Nat) × List (List Nat)) (r : List Nat),
      (∀ e ∈ st.1, e ∈ (constructStep q st r).1) ∧ ((∀ s ∈ st.2, ∃ n, (n, s) ∈ st.1) → ∀ s ∈ (constructStep q st r).2, ∃ n, (n, s) ∈ (constructStep q st r).1) := by
    intro q st r
    unfold constructStep
    simp only
    split
    · split
      · exact ⟨fun e h => h, fun h => h⟩
      · refine ⟨fun e h => List.mem_append_left _ h, fun h s hs => ?_⟩
        rcases List.mem_append.1 hs with hs | hs
        · obtain ⟨n, hn⟩ := h s hs
          exact ⟨n, List.mem_append_left _ hn⟩
        · rw [List.mem_singleton] at hs
          exact ⟨_, List.mem_append_right _ (by rw [hs]; exact List.mem_singleton.2 rfl)⟩
    · exact ⟨fun e h => h, fun h => h⟩
  have in_mono : ∀ (q : Nat × List Nat) (rows : List (List Nat)) (st : List (Nat × List Nat) × List (List Nat)),
      (∀ e ∈ st.1, e ∈ (rows.foldl (constructStep q) st).1) ∧
      ((∀ s ∈ st.2, ∃ n, (n, s) ∈ st.1) → ∀ s ∈ (rows.foldl (constructStep q) st).2, ∃ n, (n, s) ∈ (rows.foldl (constructStep q) st).1) := by
    intro q rows
    induction rows with
    | nil => intro st; exact ⟨fun e h => h, fun h => h⟩
    | cons r rows ih =>
      intro st
      exact ⟨fun e h => (ih _).1 e ((step_mono q st r).1 e h), fun h => (ih _).2 ((step_mono q st r).2 h)⟩
  have out_mono : ∀ (eqs : List (Nat × List Nat)) (st : List (Nat × List Nat) × List (List Nat)),
      (∀ e ∈ st.1, e ∈ (eqs.foldl (fun st eq => mm.foldl (constructStep eq) st) st).1) := by
    intro eqs
    induction eqs with
    | nil => intro st e h; exact h
    | cons q eqs ih => intro st e h; exact ih _ e ((in_mono q mm st).1 e h)
  have step_hit : ∀ st : List (Nat × List Nat) × List (List Nat), (∀ s ∈ st.2, ∃ n, (n, s) ∈ st.1) →
      ∃ n sums, (n, sums) ∈ (constructStep eq st row).1 ∧ sums.Perm (eq.2.map fun j => row.getD j 0) := by
    intro st hst
    unfold constructStep
    simp only
    have hall : (eq.2.map fun j => row.getD j 0).all (fun x => x != 0) = true := by
      rw [List.all_eq_true]
      intro x hx
      obtain ⟨j, hj, rfl⟩ := List.mem_map.1 hx
      simpa using hnz j hj
    rw [if_pos hall]
    split
    · rename_i hin
      obtain ⟨n, hn⟩ := hst _ hin
      exact ⟨n, _, hn, sortBy_perm _ _⟩
    · exact ⟨_, _, List.mem_append_right _ (List.mem_singleton.2 rfl), sortBy_perm _ _⟩
  have in_hit : ∀ (rows : List (List Nat)) (st : List (Nat × List Nat) × List (List Nat)), row ∈ rows → (∀ s ∈ st.2, ∃ n, (n, s) ∈ st.1) →
      ∃ n sums, (n, sums) ∈ (rows.foldl (constructStep eq) st).1 ∧ sums.Perm (eq.2.map fun j => row.getD j 0) := by
    intro rows
    induction rows with
    | nil => intro st h; simp at h
    | cons r rows ih =>
      intro st h hst
      rcases List.mem_cons.1 h with rfl | h
      · obtain ⟨n, s, h1, h2⟩ := step_hit st hst
        exact ⟨n, s, (in_mono eq rows _).1 _ h1, h2⟩
      · exact ih _ h ((step_mono eq st r).2 hst)
  have out_hit : ∀ (eqs : List (Nat × List Nat)) (st : List (Nat × List Nat) × List (List Nat)), eq ∈ eqs → (∀ s ∈ st.2, ∃ n, (n, s) ∈ st.1) →
      ∃ n sums, (n, sums) ∈ (eqs.foldl (fun st eq => mm.foldl (constructStep eq) st) st).1 ∧ sums.Perm (eq.2.map fun j => row.getD j 0) := by
    intro eqs
    induction eqs with
    | nil => intro st h; simp at h
    | cons q eqs ih =>
      intro st h hst
      rcases List.mem_cons.1 h with rfl | h
      · obtain ⟨n, s, h1, h2⟩ := in_hit mm st hrow hst
        exact ⟨n, s, out_mono eqs _ _ h1, h2⟩
      · exact ih _ h ((in_mono q mm st).2 hst)
  exact out_hit colEqs ([], []) heq (by simp)

/-- **C41, no exception.** For every problem the search for normalisation equalities finishes: an operator marked as a last outcome is the last one of its measurement. -/
theorem C41_search_never_raises (S : Scenario) (hasChildren : Nat → Bool) (card : Nat → Nat)
    (hcard : ∀ p, hasChildren p = true → card p = S.outcomes p + 1) (cols : List (List Nat)) :
    ∃ eqs, discover (lastOutcomeMask S.lexorder hasChildren card) (orthoDict (scenarioGroups S)) cols = some eqs := by
  have hkey : ∀ x, (lastOutcomeMask S.lexorder hasChildren card).getD x false = true → ∃ g, Dict.get (orthoDict (scenarioGroups S)) x = some g := by
    intro x hx
    apply orthoDict_isSome
    cases x with
    | zero => simp [lastOutcomeMask] at hx
    | succ x =>
      simp only [lastOutcomeMask, List.getD_eq_getElem?_getD, List.getElem?_cons_succ, List.getElem?_map] at hx
      rcases ho : S.lexorder[x]? with _ | o
      · rw [ho] at hx; simp at hx
      · rw [ho] at hx
        simp only [Option.map_some, Option.getD_some, Bool.and_eq_true, decide_eq_true_eq] at hx
        have hmem := List.mem_of_getElem? ho
        obtain ⟨hlt, hox⟩ := List.getElem?_eq_some_iff.1 ho
        have hlast : o.outcome + 1 = S.outcomes (o.party - 1) := by have := hcard _ hx.1; omega
        have hmem' := hmem
        rw [lexorder_eq, List.mem_flatMap] at hmem'
        obtain ⟨k, hk, hok⟩ := hmem'
        have hko := key_of_mem_orthoGroup S hok
        refine ⟨(S.orthoGroup k).map fun op => S.lexorder.idxOf op + 1, ?_, ?_⟩
        · exact List.mem_map.2 ⟨S.orthoGroup k, List.mem_map.2 ⟨k, hk, rfl⟩, rfl⟩
        · simp only [Scenario.orthoGroup, List.mem_map, List.mem_range] at hok
          obtain ⟨a, ha, rfl⟩ := hok
          simp only at hlast
          have hr : List.range (S.outcomes (k.1 - 1)) = List.range a ++ [a] := by rw [← hlast, List.range_succ]
          have hidx : S.lexorder.idxOf (⟨k.1, k.2.1, k.2.2, a⟩ : Op) = x := by
            rw [← hox]
            exact (lexorder_nodup S).idxOf_getElem x hlt
          simp [Scenario.orthoGroup, hr, hidx]
  have : ∃ r, cols.mapM (fun m => (proposals (lastOutcomeMask S.lexorder hasChildren card) (orthoDict (scenarioGroups S)) m).map
      (acceptProposals (columnIndex cols))) = some r := by
    apply mapM_of_forall
    intro m _
    have hp : ∃ ps, proposals (lastOutcomeMask S.lexorder hasChildren card) (orthoDict (scenarioGroups S)) m = some ps := by
      unfold proposals
      apply mapM_of_forall
      intro i hi
      rw [List.mem_filter] at hi
      obtain ⟨g, hg⟩ := hkey _ hi.2
      exact ⟨_, by rw [hg]; rfl⟩
    obtain ⟨ps, hps⟩ := hp
    exact ⟨_, by rw [hps]; rfl⟩
  obtain ⟨r, hr⟩ := this
  exact ⟨r.flatten, by unfold discover; rw [hr]; rfl⟩

/-- **C41, single moments.** Every equality produced by `expand_moment_normalisation` holds for the operators of every model in which the outcomes of a measurement (there are `card - 1` of them) sum to the unit. -/
theorem C41_expand_moment_holds {R : Type*} [Ring R] (card : Nat → Nat) (skip : Nat → Bool) (moment : List Op) (ρ : Op → R)
    (hρ : ∀ o ∈ moment, skip (o.party - 1) = false → ((List.range (card (o.party - 1) - 1)).map fun a => ρ { o with outcome := a }).sum = 1)
    (norm : List Op) (terms : List (List Op)) (h : (norm, terms) ∈ expandMoment card skip moment) :
    (norm.map ρ).prod = (terms.map fun t => (t.map ρ).prod).sum := by
  unfold expandMoment at h
  rw [List.mem_filterMap] at h
  obtain ⟨k, hk, h⟩ := h
  rw [List.mem_range] at hk
  rw [List.getElem?_eq_getElem hk] at h
  simp only at h
  split at h
  · rename_i hcond
    simp only [Bool.and_eq_true, Bool.not_eq_true', decide_eq_true_eq] at hcond
    split at h
    · simp only [Option.some.injEq, Prod.mk.injEq] at h
      obtain ⟨rfl, rfl⟩ := h
      have hs := hρ moment[k] (List.getElem_mem hk) hcond.1
      have hc : card (moment[k].party - 1) - 1 = (card (moment[k].party - 1) - 1 - 1) + 1 := by omega
      have hlast : card (moment[k].party - 1) - 1 - 1 = moment[k].outcome := by omega
      rw [hc, List.range_succ, List.map_append, List.sum_append, hlast] at hs
      simp only [List.map_cons, List.map_nil, List.sum_cons, List.sum_nil, add_zero] at hs
      have hm : moment = moment.take k ++ moment[k] :: moment.drop (k + 1) := by simp
      rw [hlast, List.map_cons, List.sum_cons, List.map_map]
      have e1 : (moment.map ρ).prod = ((moment.take k).map ρ).prod * ρ moment[k] * ((moment.drop (k + 1)).map ρ).prod := by
        exact (congrArg (fun l : List Op => (l.map ρ).prod) hm).trans (by
          simp only [List.map_append, List.map_cons, List.prod_append, List.prod_cons, mul_assoc])
      have e2 : ∀ o : Nat, (((moment.take k ++ { moment[k] with outcome := o } :: moment.drop (k + 1)).map ρ).prod)
          = ((moment.take k).map ρ).prod * ρ { moment[k] with outcome := o } * ((moment.drop (k + 1)).map ρ).prod := by
        intro o; simp [mul_assoc]
      have e3 : ((List.range moment[k].outcome).map ((fun t : List Op => (t.map ρ).prod) ∘ fun o => moment.take k ++ { moment[k] with outcome := o } :: moment.drop (k + 1)))
          = (List.range moment[k].outcome).map fun o => ((moment.take k).map ρ).prod * ρ { moment[k] with outcome := o } * ((moment.drop (k + 1)).map ρ).prod := by
        apply List.map_congr_left
        intro o _
        exact e2 o
      rw [e3, sum_mul_both, e1]
      have : ((moment.take k).map ρ).prod * ρ moment[k] * ((moment.drop (k + 1)).map ρ).prod +
          ((moment.take k).map ρ).prod * ((List.range moment[k].outcome).map fun o => ρ { moment[k] with outcome := o }).sum * ((moment.drop (k + 1)).map ρ).prod
          = ((moment.take k).map ρ).prod * (((List.range moment[k].outcome).map fun o => ρ { moment[k] with outcome := o }).sum + ρ moment[k]) * ((moment.drop (k + 1)).map ρ).prod := by
        rw [mul_add, add_mul, add_comm]
      rw [this, hs]
      simp
    · simp at h
  · simp at h

/-- **C41, single moments.** One equality for every last outcome of a party that is not skipped. -/
theorem C41_expand_moment_complete (card : Nat → Nat) (skip : Nat → Bool) (pre suf : List Op) (o : Op)
    (hs : skip (o.party - 1) = false) (ho : o.outcome + 2 = card (o.party - 1)) :
    ∃ terms, (pre ++ suf, terms) ∈ expandMoment card skip (pre ++ o :: suf) := by
  refine ⟨(pre ++ o :: suf) :: (List.range (card (o.party - 1) - 1 - 1)).map fun a => pre ++ { o with outcome := a } :: suf, ?_⟩
  unfold expandMoment
  rw [List.mem_filterMap]
  refine ⟨pre.length, by simp, ?_⟩
  have : (pre ++ o :: suf)[pre.length]? = some o := by simp
  rw [this]
  simp only [hs, Bool.not_false, Bool.true_and, ho, decide_true, if_true]
  rw [if_pos (by simp; omega)]
  simp

end Verif.Normalization

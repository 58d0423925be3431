import Verif.LpSolver.Rows
/-! Meaning of the primal task. -/
namespace Verif.LpSolver
open Verif.Common

variable {K : Type} [Field K] [LinearOrder K]

omit [Field K] [LinearOrder K] in
theorem getD_rep {α : Type} {n i : Nat} (h : i < n) {a d : α} : (List.replicate n a).getD i d = a := by
  rw [List.getD_eq_getElem _ _ (by simpa using h)]
  simp

omit [Field K] [LinearOrder K] in
theorem foldl_set_length (l : List (Nat × Nat × K)) (acc : List K) : (l.foldl (fun acc e => acc.set e.2.1 e.2.2) acc).length = acc.length := by
  induction l generalizing acc with
  | nil => rfl
  | cons e l ih => simp only [List.foldl_cons]; rw [ih]; simp

omit [Field K] [LinearOrder K] in
theorem foldl_set_other {l : List (Nat × Nat × K)} {acc : List K} {j : Nat} (h : ∀ e ∈ l, e.2.1 ≠ j) :
    (l.foldl (fun acc e => acc.set e.2.1 e.2.2) acc)[j]? = acc[j]? := by
  induction l generalizing acc with
  | nil => rfl
  | cons e l ih =>
    simp only [List.foldl_cons]
    rw [ih fun d hd => h d (List.mem_cons_of_mem _ hd), List.getElem?_set_ne (h e (by simp))]

omit [Field K] [LinearOrder K] in
theorem foldl_set_mem {l : List (Nat × Nat × K)} {acc : List K} (hnd : (l.map fun e => e.2.1).Nodup) {e : Nat × Nat × K} (he : e ∈ l)
    (hlt : e.2.1 < acc.length) : (l.foldl (fun acc e => acc.set e.2.1 e.2.2) acc)[e.2.1]? = some e.2.2 := by
  induction l generalizing acc with
  | nil => simp at he
  | cons d l ih =>
    simp only [List.foldl_cons]
    rw [List.map_cons, List.nodup_cons] at hnd
    rcases List.mem_cons.1 he with rfl | he
    · rw [foldl_set_other (fun c hc heq => hnd.1 (List.mem_map.2 ⟨c, hc, heq⟩))]
      simp [hlt]
    · exact ih hnd.2 he (by simpa using hlt)

theorem scatter_mem {n : Nat} {v : Coo K} (hnd : (v.ents.map fun e => e.2.1).Nodup) {e : Nat × Nat × K} (he : e ∈ v.ents) (hlt : e.2.1 < n) :
    (scatter n v).getD e.2.1 0 = e.2.2 := by
  unfold scatter
  rw [List.getD_eq_getElem?_getD, foldl_set_mem hnd he (by simpa using hlt)]
  rfl

theorem scatter_other {n : Nat} {v : Coo K} {j : Nat} (h : ∀ e ∈ v.ents, e.2.1 ≠ j) : (scatter n v).getD j 0 = 0 := by
  unfold scatter
  rw [List.getD_eq_getElem?_getD, foldl_set_other h, List.getElem?_replicate]
  split <;> rfl

theorem canonicalOrder_nodup {v : Coo K} (h : (v.ents.map fun e => e.2.1).Nodup) : ((canonicalOrder v).ents.map fun e => e.2.1).Nodup :=
  ((canonicalOrder_perm v).map _).nodup_iff.2 h

/-- Constraints of the primal task without relaxation. -/
theorem primal_con {n : Nat} {f : Flags} {a : Args K} {p : Prep K} (hs : PrepSpec n f a p) (hrk : f.relaxKnown = false)
    (hri : f.relaxIneq = false) (x : Nat → K) :
    (∀ i, i < (primalTask f p).numcon → sat ((primalTask f p).bkc.getD i .fr) ((primalTask f p).blc.getD i 0) ((primalTask f p).buc.getD i 0)
      (rowAt (primalTask f p).ents x i)) ↔ Causal a x ∧ Known a x := by
  have hrows := hs.rows
  have hb := hs.b
  have hnE := hs.nEq
  have hlen := canonicalOrder_length a.known
  simp only [hrk, Bool.false_eq_true, if_false] at hrows hb hnE
  simp only [primalTask, hrk, Bool.false_eq_true, if_false, List.append_nil, hs.nIneq, hnE, hb, hrows]
  rw [known_iff]
  constructor
  · intro h
    refine ⟨⟨?_, ?_⟩, ?_⟩
    · intro i hi
      have := h i (by omega)
      rw [List.getD_append _ _ _ _ (by simpa using hi), getD_rep hi, List.getD_append _ _ _ _ (by simp; omega),
        getD_rep (by omega), hs.ineqRow x i hi] at this
      simpa [sat, hri] using this
    · intro i hi
      have := h (a.ineq.rows + i) (by omega)
      rw [List.getD_append_right _ _ _ _ (by simp), List.length_replicate, Nat.add_sub_cancel_left, getD_rep (by omega),
        List.getD_append _ _ _ _ (by simp; omega), getD_rep (by omega), hs.eqRow x i hi] at this
      simpa [sat] using this
    · intro k hk
      have := h (a.ineq.rows + a.eq.rows + k) (by omega)
      rw [List.getD_append_right _ _ _ _ (by simp; omega), List.length_replicate, getD_rep (by omega),
        List.getD_append_right _ _ _ _ (by simp), List.length_replicate, Nat.add_sub_cancel_left, hs.knownRow hrk x k hk] at this
      simpa [sat, knownVal] using this
  · rintro ⟨⟨h1, h2⟩, h3⟩ i hi
    rcases Nat.lt_or_ge i a.ineq.rows with hlt | hge
    · rw [List.getD_append _ _ _ _ (by simpa using hlt), getD_rep hlt, List.getD_append _ _ _ _ (by simp; omega),
        getD_rep (by omega), hs.ineqRow x i hlt]
      simpa [sat, hri] using h1 i hlt
    · rcases Nat.lt_or_ge i (a.ineq.rows + a.eq.rows) with hlt | hge'
      · obtain ⟨j, rfl⟩ := Nat.exists_eq_add_of_le hge
        rw [List.getD_append_right _ _ _ _ (by simp), List.length_replicate, Nat.add_sub_cancel_left, getD_rep (by omega),
          List.getD_append _ _ _ _ (by simp; omega), getD_rep (by omega), hs.eqRow x j (by omega)]
        simpa [sat] using h2 j (by omega)
      · obtain ⟨k, rfl⟩ := Nat.exists_eq_add_of_le hge'
        rw [List.getD_append_right _ _ _ _ (by simp; omega), List.length_replicate, getD_rep (by omega),
          List.getD_append_right _ _ _ _ (by simp), List.length_replicate, Nat.add_sub_cancel_left, hs.knownRow hrk x k (by omega)]
        simpa [sat, knownVal] using h3 k (by omega)

theorem mem_cols {v : Coo K} {j : Nat} : (j ∈ (canonicalOrder v).ents.map fun e => e.2.1) ↔ ∃ e ∈ v.ents, e.2.1 = j := by
  rw [List.mem_map]
  constructor
  · rintro ⟨e, he, rfl⟩; exact ⟨e, (canonicalOrder_perm v).mem_iff.1 he, rfl⟩
  · rintro ⟨e, he, rfl⟩; exact ⟨e, (canonicalOrder_perm v).mem_iff.2 he, rfl⟩

/-- A variable satisfies its bound key iff it satisfies the bounds given for it. -/
theorem primal_var_at {n : Nat} {f : Flags} {a : Args K} (h : ArgsOk n a) {N : Nat} (hN : n ≤ N) {j : Nat} (hj : j < n)
    (hfree : ¬ (f.relaxed = true ∧ j = N - 1)) (v : K) :
    sat (primalKey f N ((canonicalOrder a.lower).ents.map fun e => e.2.1) ((canonicalOrder a.upper).ents.map fun e => e.2.1) j)
      ((scatter N (canonicalOrder a.lower)).getD j 0) ((scatter N (canonicalOrder a.upper)).getD j 0) v ↔
    (∀ e ∈ a.lower.ents, e.2.1 = j → e.2.2 ≤ v) ∧ (∀ e ∈ a.upper.ents, e.2.1 = j → v ≤ e.2.2) ∧
      (f.effNonneg = true → (∀ e ∈ a.lower.ents, e.2.1 ≠ j) → 0 ≤ v) := by
  have hkey : (f.relaxed && j == N - 1) = false := by
    by_contra hc
    simp only [Bool.not_eq_false, Bool.and_eq_true, beq_iff_eq] at hc
    exact hfree hc
  have hL : ∀ e ∈ a.lower.ents, (scatter N (canonicalOrder a.lower)).getD e.2.1 0 = e.2.2 := fun e he =>
    scatter_mem (canonicalOrder_nodup h.lower.nodup) ((canonicalOrder_perm _).mem_iff.2 he) (lt_of_lt_of_le (h.lower.inRange e he).2 hN)
  have hU : ∀ e ∈ a.upper.ents, (scatter N (canonicalOrder a.upper)).getD e.2.1 0 = e.2.2 := fun e he =>
    scatter_mem (canonicalOrder_nodup h.upper.nodup) ((canonicalOrder_perm _).mem_iff.2 he) (lt_of_lt_of_le (h.upper.inRange e he).2 hN)
  have hL0 : (∀ e ∈ a.lower.ents, e.2.1 ≠ j) → (scatter N (canonicalOrder a.lower)).getD j 0 = 0 := fun hh =>
    scatter_other fun e he => hh e ((canonicalOrder_perm _).mem_iff.1 he)
  unfold primalKey
  rw [hkey]
  simp only [Bool.false_eq_true, if_false, mem_cols]
  by_cases hl : ∃ e ∈ a.lower.ents, e.2.1 = j
  · obtain ⟨e, he, rfl⟩ := hl
    have hlow : (∀ d ∈ a.lower.ents, d.2.1 = e.2.1 → d.2.2 ≤ v) ↔ e.2.2 ≤ v := by
      constructor
      · intro hh; exact hh e he rfl
      · intro hh d hd heq
        rw [← hL d hd, heq, hL e he]; exact hh
    have hno : ¬ ∀ d ∈ a.lower.ents, d.2.1 ≠ e.2.1 := fun hh => hh e he rfl
    rw [hlow, hL e he]
    by_cases hu : ∃ e' ∈ a.upper.ents, e'.2.1 = e.2.1
    · obtain ⟨u, hu, hue⟩ := hu
      have hup : (∀ d ∈ a.upper.ents, d.2.1 = e.2.1 → v ≤ d.2.2) ↔ v ≤ u.2.2 := by
        constructor
        · intro hh; exact hh u hu hue
        · intro hh d hd heq
          rw [← hU d hd, heq, ← hue, hU u hu]; exact hh
      have hex : ∃ e' ∈ a.upper.ents, e'.2.1 = e.2.1 := ⟨u, hu, hue⟩
      have hex' : ∃ e' ∈ a.lower.ents, e'.2.1 = e.2.1 := ⟨e, he, rfl⟩
      rw [hup, ← hue, hU u hu]
      rw [hue, if_pos hex, if_pos hex']
      simp only [ite_self, sat]
      exact ⟨fun h => ⟨h.1, h.2, fun _ h' => absurd h' hno⟩, fun h => ⟨h.1, h.2.1⟩⟩
    · have hex' : ∃ e' ∈ a.lower.ents, e'.2.1 = e.2.1 := ⟨e, he, rfl⟩
      have hup : ∀ d ∈ a.upper.ents, d.2.1 = e.2.1 → v ≤ d.2.2 := fun d hd heq => absurd ⟨d, hd, heq⟩ hu
      rw [if_neg hu, if_pos hex']
      simp only [ite_self, sat]
      exact ⟨fun h => ⟨h, hup, fun _ h' => absurd h' hno⟩, fun h => h.1⟩
  · have hno : ∀ d ∈ a.lower.ents, d.2.1 ≠ j := fun d hd heq => hl ⟨d, hd, heq⟩
    have hlow : ∀ d ∈ a.lower.ents, d.2.1 = j → d.2.2 ≤ v := fun d hd heq => absurd heq (hno d hd)
    rw [hL0 hno, if_neg hl]
    by_cases hu : ∃ e' ∈ a.upper.ents, e'.2.1 = j
    · obtain ⟨u, hu, rfl⟩ := hu
      have hup : (∀ d ∈ a.upper.ents, d.2.1 = u.2.1 → v ≤ d.2.2) ↔ v ≤ u.2.2 := by
        constructor
        · intro hh; exact hh u hu rfl
        · intro hh d hd heq
          rw [← hU d hd, heq, hU u hu]; exact hh
      have hex : ∃ e' ∈ a.upper.ents, e'.2.1 = u.2.1 := ⟨u, hu, rfl⟩
      rw [hup, hU u hu, if_pos hex, if_pos hex]
      by_cases hnn : f.effNonneg = true
      · rw [if_pos hnn]
        simp only [sat]
        exact ⟨fun h => ⟨hlow, h.2, fun _ _ => h.1⟩, fun h => ⟨h.2.2 hnn hno, h.2.1⟩⟩
      · rw [if_neg hnn]
        simp only [sat]
        exact ⟨fun h => ⟨hlow, h, fun h' => absurd h' hnn⟩, fun h => h.2.1⟩
    · have hup : ∀ d ∈ a.upper.ents, d.2.1 = j → v ≤ d.2.2 := fun d hd heq => absurd ⟨d, hd, heq⟩ hu
      rw [if_neg hu, if_neg hu]
      by_cases hnn : f.effNonneg = true
      · rw [if_pos hnn]
        simp only [sat]
        exact ⟨fun h => ⟨hlow, hup, fun _ _ => h⟩, fun h => h.2.2 hnn hno⟩
      · rw [if_neg hnn]
        simp only [sat, true_iff]
        exact ⟨hlow, hup, fun h' => absurd h' hnn⟩

/-- The bounds of the variables in the primal task. -/
theorem primal_var {n : Nat} {f : Flags} {a : Args K} (h : ArgsOk n a) {p : Prep K} (hs : PrepSpec n f a p) (x : Nat → K) :
    (∀ j, j < (primalTask f p).numvar → sat ((primalTask f p).bkx.getD j .fr) ((primalTask f p).blx.getD j 0) ((primalTask f p).bux.getD j 0) (x j)) ↔
      Bounds a x ∧ (f.effNonneg = true → DefaultNonneg n a x) := by
  simp only [primalTask, hs.lower, hs.upper, hs.cols]
  have hN : n ≤ (if f.relaxed = true then n + 1 else n) := by split <;> omega
  have hfree : ∀ j, j < n → ¬ (f.relaxed = true ∧ j = (if f.relaxed = true then n + 1 else n) - 1) := by
    rintro j hj ⟨hr, hj'⟩
    rw [if_pos hr] at hj'
    omega
  have hget : ∀ j, j < (if f.relaxed = true then n + 1 else n) →
      ((List.range (if f.relaxed = true then n + 1 else n)).map (primalKey f (if f.relaxed = true then n + 1 else n)
        ((canonicalOrder a.lower).ents.map fun e => e.2.1) ((canonicalOrder a.upper).ents.map fun e => e.2.1))).getD j .fr =
      primalKey f (if f.relaxed = true then n + 1 else n)
        ((canonicalOrder a.lower).ents.map fun e => e.2.1) ((canonicalOrder a.upper).ents.map fun e => e.2.1) j := by
    intro j hj
    rw [List.getD_eq_getElem _ _ (by simpa using hj)]
    simp
  constructor
  · intro hh
    have key : ∀ j, j < n → _ := fun j hj => (primal_var_at h hN hj (hfree j hj) (x j)).1 (by
      have := hh j (by omega)
      rw [hget j (by omega)] at this
      exact this)
    refine ⟨⟨?_, ?_⟩, ?_⟩
    · intro e he; exact (key e.2.1 (h.lower.inRange e he).2).1 e he rfl
    · intro e he; exact (key e.2.1 (h.upper.inRange e he).2).2.1 e he rfl
    · intro hnn j hj hno; exact (key j hj).2.2 hnn hno
  · rintro ⟨⟨h1, h2⟩, h3⟩ j hj
    rw [hget j hj]
    by_cases hjn : j < n
    · refine (primal_var_at h hN hjn (hfree j hjn) (x j)).2 ⟨?_, ?_, ?_⟩
      · rintro e he rfl; exact h1 e he
      · rintro e he rfl; exact h2 e he
      · intro hnn hno; exact h3 hnn j hjn hno
    · have hr : f.relaxed = true := by
        by_contra hc
        rw [if_neg hc] at hj
        exact hjn hj
      rw [if_pos hr] at hj ⊢
      have : j = n := by omega
      subst this
      unfold primalKey
      simp [hr, sat]

/-- The dense form of the objective evaluates to the objective. -/
theorem sum_dense {n : Nat} {v : Coo K} (h : ∀ e ∈ v.ents, e.2.1 < n) (x : Nat → K) :
    ∑ j ∈ Finset.range n, ((v.ents.filter fun e => e.2.1 == j).map fun e => e.2.2).sum * x j = linear v x := by
  unfold linear
  generalize v.ents = l at h
  induction l with
  | nil => simp
  | cons e l ih =>
    have hl := ih fun d hd => h d (List.mem_cons_of_mem _ hd)
    rw [List.map_cons, List.sum_cons, ← hl]
    have he := h e (by simp)
    have : ∀ j, (((e :: l).filter fun e => e.2.1 == j).map fun e => e.2.2).sum * x j =
        (if j = e.2.1 then e.2.2 * x j else 0) + ((l.filter fun e => e.2.1 == j).map fun e => e.2.2).sum * x j := by
      intro j
      by_cases hj : e.2.1 = j
      · subst hj; simp [add_mul]
      · have hj' : ¬ j = e.2.1 := fun hh => hj hh.symm
        simp [List.filter_cons, hj, hj']
    simp only [this, Finset.sum_add_distrib, Finset.sum_ite_eq', Finset.mem_range, he, if_true]

theorem linear_canonical (v : Coo K) (x : Nat → K) : linear (canonicalOrder v) x = linear v x := by
  unfold linear
  exact ((canonicalOrder_perm v).map _).sum_eq

theorem dense_getD {v : Coo K} {j : Nat} (hj : j < v.cols) : (dense v).getD j 0 = ((v.ents.filter fun e => e.2.1 == j).map fun e => e.2.2).sum := by
  unfold dense
  rw [List.getD_eq_getElem _ _ (by simpa using hj)]
  simp

/-- The objective prepared for the solver: `n` columns, same value. -/
theorem objective_value {n : Nat} {f : Flags} {a : Args K} (h : ArgsOk n a) {p : Prep K} (hs : PrepSpec n f a p) (hr : f.relaxed = false)
    (x : Nat → K) : ∑ j ∈ Finset.range n, (dense p.objective).getD j 0 * x j = linear a.objective x := by
  have hcols : p.con.cols = n := by rw [hs.cols, hr]; rfl
  have hpc : p.objective.cols = n := by
    rw [hs.objective]
    split
    · exact hcols
    · rename_i h0; exact (h.objCols.resolve_left h0)
  have hlin : linear p.objective x = linear a.objective x := by
    rw [hs.objective]
    split
    · rename_i h0
      have : a.objective.ents = [] := by
        rcases hE : a.objective.ents with _ | ⟨e, l⟩
        · rfl
        · have := h.objective.colsIn e (by simp [hE]); omega
      simp [linear, this]
    · exact linear_canonical _ x
  have hin : ∀ e ∈ p.objective.ents, e.2.1 < n := by
    rw [hs.objective]
    split
    · simp
    · intro e he; exact (h.objective.inRange e ((canonicalOrder_perm _).mem_iff.1 he)).2
  rw [← hlin, ← sum_dense hin x]
  apply Finset.sum_congr rfl
  intro j hj
  rw [dense_getD (by rw [hpc]; exact Finset.mem_range.1 hj)]

end Verif.LpSolver

import Verif.LpSolver.Props
import Verif.LpSolver.Relax
/-! Meaning of the certificate read off the multipliers. -/
namespace Verif.LpSolver
open Verif.Common

variable {K : Type} [Field K] [LinearOrder K]

theorem foldl_setK_length (l : List (Nat × K)) (acc : List K) : (l.foldl (fun acc t => acc.set t.1 t.2) acc).length = acc.length := by
  induction l generalizing acc with
  | nil => rfl
  | cons e l ih => simp [ih]

theorem foldl_setK_other {l : List (Nat × K)} {acc : List K} {j : Nat} (h : ∀ t ∈ l, t.1 ≠ j) :
    (l.foldl (fun acc t => acc.set t.1 t.2) acc).getD j 0 = acc.getD j 0 := by
  induction l generalizing acc with
  | nil => rfl
  | cons e l ih =>
    rw [List.foldl_cons, ih fun t ht => h t (List.mem_cons_of_mem _ ht), List.getD_eq_getElem?_getD,
      List.getElem?_set_ne (h e (by simp)), ← List.getD_eq_getElem?_getD]

theorem foldl_setK_mem {l : List (Nat × K)} {acc : List K} (hnd : (l.map fun t => t.1).Nodup) {t : Nat × K} (ht : t ∈ l)
    (hlt : t.1 < acc.length) : (l.foldl (fun acc t => acc.set t.1 t.2) acc).getD t.1 0 = t.2 := by
  induction l generalizing acc with
  | nil => exact absurd ht (by simp)
  | cons e l ih =>
    simp only [List.map_cons, List.nodup_cons, List.mem_map, not_exists, not_and] at hnd
    rw [List.foldl_cons]
    rcases List.mem_cons.1 ht with rfl | ht
    · rw [foldl_setK_other fun s hs => hnd.1 s hs, List.getD_eq_getElem?_getD, List.getElem?_set_self hlt]
      rfl
    · exact ih hnd.2 ht (by simpa using hlt)

theorem foldl_setG {l : List Nat} {g : Nat → K} {acc : List K} {j : Nat} (hj : j < acc.length) :
    (l.foldl (fun acc c => acc.set c (g c)) acc).getD j 0 = if j ∈ l then g j else acc.getD j 0 := by
  induction l using List.reverseRecOn with
  | nil => simp
  | append_singleton l c ih =>
    have hlen : ∀ l : List Nat, (l.foldl (fun acc c => acc.set c (g c)) acc).length = acc.length := by
      intro l
      induction l using List.reverseRecOn with
      | nil => rfl
      | append_singleton l c ih => rw [List.foldl_append]; simpa using ih
    rw [List.foldl_append]
    simp only [List.foldl_cons, List.foldl_nil]
    by_cases hc : c = j
    · subst hc
      rw [List.getD_eq_getElem?_getD, List.getElem?_set_self (by rw [hlen]; exact hj)]
      simp
    · rw [List.getD_eq_getElem?_getD, List.getElem?_set_ne hc, ← List.getD_eq_getElem?_getD, ih]
      have : (j ∈ l ++ [c]) ↔ j ∈ l := by simp [Ne.symm hc]
      simp [this]

/-- The coefficient the certificate gives to the `k`-th known value. -/
def certCoeff (f : Flags) (a : Args K) (y : List K) (k : Nat) : K :=
  y.getD (a.ineq.rows + a.eq.rows + k) 0 +
    (if f.relaxKnown then y.getD (a.ineq.rows + a.eq.rows + a.known.ents.length + k) 0 else 0)

/-- The known columns without repetition. -/
theorem knownCol_inj {n : Nat} {a : Args K} (h : ArgsOk n a) {k l : Nat} (hk : k < a.known.ents.length) (hl : l < a.known.ents.length)
    (he : knownCol a k = knownCol a l) : k = l := by
  have hnd := canonicalOrder_nodup h.known.nodup
  have hlen := canonicalOrder_length a.known
  unfold knownCol at he
  rw [List.getD_eq_getElem _ _ (by simpa [hlen] using hk), List.getD_eq_getElem _ _ (by simpa [hlen] using hl)] at he
  exact (List.Nodup.getElem_inj_iff hnd).1 he

theorem zip_getElem_mem {cols : List Nat} {vals : List K} {k : Nat} (h1 : k < cols.length) (h2 : k < vals.length) :
    (cols.getD k 0, vals.getD k 0) ∈ cols.zip vals := by
  rw [List.getD_eq_getElem _ _ h1, List.getD_eq_getElem _ _ h2]
  have : (cols.zip vals)[k]'(by simp; omega) = (cols[k], vals[k]) := by simp
  rw [← this]
  exact List.getElem_mem _

/-- Entry `j` of the certificate. -/
theorem certData_known {n : Nat} {f : Flags} {a : Args K} (h : ArgsOk n a) {p : Prep K} (hs : PrepSpec n f a p) {y : List K}
    (hy : p.con.rows ≤ y.length) {k : Nat} (hk : k < a.known.ents.length) :
    (certData f p y).getD (knownCol a k) 0 = certCoeff f a y k := by
  have hlen := canonicalOrder_length a.known
  have hrows := hs.rows
  have hcols : n ≤ p.con.cols := by rw [hs.cols]; split <;> omega
  have hlt : knownCol a k < p.con.cols := lt_of_lt_of_le (knownCol_lt h hk) hcols
  have hnd := canonicalOrder_nodup h.known.nodup
  have hkc : p.knownCols = (canonicalOrder a.known).ents.map fun e => e.2.1 := hs.knownCols
  have hkl : p.knownCols.length = a.known.ents.length := by rw [hkc]; simp [hlen]
  have hc0 : ∀ (l : List Nat) (g : Nat → K), (l.foldl (fun acc c => acc.set c (g c)) (List.replicate p.con.cols (0 : K))).length = p.con.cols := by
    intro l g
    induction l using List.reverseRecOn with
    | nil => simp
    | append_singleton l c ih => rw [List.foldl_append]; simpa using ih
  have hfst : ∀ vals : List K, a.known.ents.length ≤ vals.length → ((p.knownCols.zip vals).map fun t => t.1) = p.knownCols := by
    intro vals hv
    exact List.map_fst_zip (by rw [hkl]; exact hv)
  have hkcol : p.knownCols.getD k 0 = knownCol a k := by rw [hkc]; rfl
  unfold certData certCoeff
  by_cases hrk : f.relaxKnown = true
  · simp only [hrk, if_true]
    rw [hrk] at hrows
    simp only [if_true] at hrows
    have hm : p.con.rows - p.nKnown * 2 = a.ineq.rows + a.eq.rows := by rw [hrows, hs.nKnown]; omega
    rw [hm, hs.nKnown]
    generalize hc1 : ((p.knownCols.zip ((y.drop (a.ineq.rows + a.eq.rows)).take a.known.ents.length)).foldl (fun acc t => acc.set t.1 t.2)
      ((List.filter (fun c => !p.knownCols.contains c) (p.objective.ents.map fun e => e.2.1)).foldl
        (fun acc c => acc.set c (-(dense p.objective).getD c 0)) (List.replicate p.con.cols 0))) = c1
    have hl1 : c1.length = p.con.cols := by rw [← hc1, foldl_setK_length, hc0]
    have hv1 : c1.getD (knownCol a k) 0 = y.getD (a.ineq.rows + a.eq.rows + k) 0 := by
      rw [← hc1]
      have := zip_getElem_mem (cols := p.knownCols) (vals := (y.drop (a.ineq.rows + a.eq.rows)).take a.known.ents.length) (k := k)
        (by omega) (by simp; omega)
      rw [hkcol] at this
      have h2 := foldl_setK_mem (acc := (List.filter (fun c => !p.knownCols.contains c) (p.objective.ents.map fun e => e.2.1)).foldl
        (fun acc c => acc.set c (-(dense p.objective).getD c 0)) (List.replicate p.con.cols 0))
        (by rw [hfst _ (by simp; omega)]; rw [hkc]; exact hnd) this (by rw [hc0]; exact hlt)
      rw [h2]
      simp [List.getD_eq_getElem?_getD, List.getElem?_take, hk]
    have hmap : (p.knownCols.zip (((y.drop (a.ineq.rows + a.eq.rows)).drop a.known.ents.length).take a.known.ents.length)).foldl
        (fun acc t => acc.set t.1 (c1.getD t.1 0 + t.2)) c1 =
        ((p.knownCols.zip (((y.drop (a.ineq.rows + a.eq.rows)).drop a.known.ents.length).take a.known.ents.length)).map
          fun t => (t.1, c1.getD t.1 0 + t.2)).foldl (fun acc t => acc.set t.1 t.2) c1 := by
      rw [List.foldl_map]
    rw [hmap]
    have hz := zip_getElem_mem (cols := p.knownCols)
      (vals := ((y.drop (a.ineq.rows + a.eq.rows)).drop a.known.ents.length).take a.known.ents.length) (k := k)
      (by omega) (by simp; omega)
    rw [hkcol] at hz
    have h2 := foldl_setK_mem (acc := c1) (l := (p.knownCols.zip
        (((y.drop (a.ineq.rows + a.eq.rows)).drop a.known.ents.length).take a.known.ents.length)).map
          fun t => (t.1, c1.getD t.1 0 + t.2))
      (by
        rw [List.map_map]
        show ((p.knownCols.zip _).map fun t => t.1).Nodup
        rw [hfst _ (by simp; omega), hkc]; exact hnd)
      (List.mem_map.2 ⟨_, hz, rfl⟩) (by rw [hl1]; exact hlt)
    simp only at h2
    rw [h2, hv1]
    congr 1
    simp [List.getD_eq_getElem?_getD, List.getElem?_take, hk, Nat.add_assoc]
  · have hrk' : f.relaxKnown = false := by simpa using hrk
    simp only [hrk', Bool.false_eq_true, if_false, add_zero]
    rw [hrk'] at hrows
    simp only [Bool.false_eq_true, if_false] at hrows
    have hm : p.con.rows - p.nKnown = a.ineq.rows + a.eq.rows := by rw [hrows, hs.nKnown]; omega
    rw [hm, hs.nKnown]
    have := zip_getElem_mem (cols := p.knownCols) (vals := (y.drop (a.ineq.rows + a.eq.rows)).take a.known.ents.length) (k := k)
      (by omega) (by simp; omega)
    rw [hkcol] at this
    have h2 := foldl_setK_mem (acc := (List.filter (fun c => !p.knownCols.contains c) (p.objective.ents.map fun e => e.2.1)).foldl
      (fun acc c => acc.set c (-(dense p.objective).getD c 0)) (List.replicate p.con.cols 0))
      (by rw [hfst _ (by simp; omega)]; rw [hkc]; exact hnd) this (by rw [hc0]; exact hlt)
    rw [h2]
    simp [List.getD_eq_getElem?_getD, List.getElem?_take, hk]

theorem certData_other {n : Nat} {f : Flags} {a : Args K} {p : Prep K} (hs : PrepSpec n f a p) {y : List K}
    {j : Nat} (hj : j < p.con.cols) (hk : ∀ e ∈ a.known.ents, e.2.1 ≠ j) :
    (certData f p y).getD j 0 = - (dense p.objective).getD j 0 := by
  have hkc : p.knownCols = (canonicalOrder a.known).ents.map fun e => e.2.1 := hs.knownCols
  have hnot : j ∉ p.knownCols := by
    rw [hkc, mem_cols]
    rintro ⟨e, he, rfl⟩
    exact hk e he rfl
  have hz : ∀ (vals : List K), ∀ t ∈ p.knownCols.zip vals, t.1 ≠ j := by
    intro vals t ht heq
    apply hnot
    rw [← heq]
    exact (List.of_mem_zip (show (t.1, t.2) ∈ _ from ht)).1
  have h0 : ((List.filter (fun c => !p.knownCols.contains c) (p.objective.ents.map fun e => e.2.1)).foldl
        (fun acc c => acc.set c (-(dense p.objective).getD c 0)) (List.replicate p.con.cols 0)).getD j 0 = - (dense p.objective).getD j 0 := by
    rw [foldl_setG (g := fun c => -(dense p.objective).getD c 0) (by simpa using hj)]
    split
    · rfl
    · rename_i hne
      have hne' : j ∉ p.objective.ents.map fun e => e.2.1 := by
        intro hm
        apply hne
        rw [List.mem_filter]
        exact ⟨hm, by simpa using hnot⟩
      have : (dense p.objective).getD j 0 = 0 := by
        by_cases hlt : j < p.objective.cols
        · rw [dense_getD hlt]
          have : (p.objective.ents.filter fun e => e.2.1 == j) = [] := by
            rw [List.filter_eq_nil_iff]
            intro e he heq
            exact hne' (List.mem_map.2 ⟨e, he, by simpa using heq⟩)
          rw [this]; rfl
        · rw [List.getD_eq_getElem?_getD, List.getElem?_eq_none (by simpa [dense] using hlt)]
          rfl
      rw [this, getD_rep hj, neg_zero]
  unfold certData
  by_cases hrk : f.relaxKnown = true
  · simp only [hrk, if_true]
    generalize hc1 : ((p.knownCols.zip ((y.drop _).take p.nKnown)).foldl (fun acc t => acc.set t.1 t.2)
      ((List.filter (fun c => !p.knownCols.contains c) (p.objective.ents.map fun e => e.2.1)).foldl
        (fun acc c => acc.set c (-(dense p.objective).getD c 0)) (List.replicate p.con.cols 0))) = c1
    have hm : ∀ l : List (Nat × K), l.foldl (fun acc t => acc.set t.1 (c1.getD t.1 0 + t.2)) c1 =
        (l.map fun t => (t.1, c1.getD t.1 0 + t.2)).foldl (fun acc t => acc.set t.1 t.2) c1 := by
      intro l; rw [List.foldl_map]
    rw [hm, foldl_setK_other, ← hc1, foldl_setK_other (hz _), h0]
    intro t ht
    obtain ⟨s, hs, rfl⟩ := List.mem_map.1 ht
    exact hz _ s hs
  · have hrk' : f.relaxKnown = false := by simpa using hrk
    simp only [hrk', Bool.false_eq_true, if_false]
    rw [foldl_setK_other (hz _), h0]

/-- The terms of the objective on the unknown variables. -/
def unknownObjective (a : Args K) (x : Nat → K) : K :=
  ((a.objective.ents.filter fun e => !((a.known.ents.map fun d => d.2.1).contains e.2.1)).map fun e => e.2.2 * x e.2.1).sum

/-- **Value of the certificate** at any assignment: the multipliers on the known variables, minus the objective on the others. -/
theorem certData_value {n : Nat} {f : Flags} {a : Args K} (h : ArgsOk n a) {p : Prep K} (hs : PrepSpec n f a p) {y : List K}
    (hy : p.con.rows ≤ y.length) (x : Nat → K) :
    ∑ j ∈ Finset.range n, (certData f p y).getD j 0 * x j =
      ∑ k ∈ Finset.range a.known.ents.length, certCoeff f a y k * x (knownCol a k) - unknownObjective a x := by
  have hcols : n ≤ p.con.cols := by rw [hs.cols]; split <;> omega
  have hkc : p.knownCols = (canonicalOrder a.known).ents.map fun e => e.2.1 := hs.knownCols
  -- entry by entry
  have hentry : ∀ j, j < n → (certData f p y).getD j 0 =
      ∑ k ∈ Finset.range a.known.ents.length, (if knownCol a k = j then certCoeff f a y k else 0) -
      (if (a.known.ents.map fun d => d.2.1).contains j then 0 else (dense p.objective).getD j 0) := by
    intro j hj
    by_cases hm : ∃ e ∈ a.known.ents, e.2.1 = j
    · have hmem : j ∈ (canonicalOrder a.known).ents.map fun e => e.2.1 := mem_cols.2 hm
      obtain ⟨k, hk, he⟩ := List.getElem_of_mem hmem
      have hk' : k < a.known.ents.length := by simpa [canonicalOrder_length] using hk
      have hkj : knownCol a k = j := by
        unfold knownCol
        rw [List.getD_eq_getElem _ _ hk, he]
      rw [← hkj, certData_known h hs hy hk', Finset.sum_eq_single k]
      · have : (a.known.ents.map fun d => d.2.1).contains (knownCol a k) = true := by
          rw [hkj]; obtain ⟨e, he1, he2⟩ := hm
          simp only [List.contains_eq_mem, List.mem_map, decide_eq_true_eq]
          exact ⟨e, he1, he2⟩
        rw [if_pos rfl, if_pos this, sub_zero]
      · intro l hl hne
        rw [if_neg fun he => hne (knownCol_inj h (Finset.mem_range.1 hl) hk' he)]
      · intro hnot; exact absurd (Finset.mem_range.2 hk') hnot
    · have hne : ∀ e ∈ a.known.ents, e.2.1 ≠ j := fun e he heq => hm ⟨e, he, heq⟩
      rw [certData_other hs (by omega) hne, Finset.sum_eq_zero]
      · have : (a.known.ents.map fun d => d.2.1).contains j = false := by
          simp only [List.contains_eq_mem, List.mem_map, decide_eq_false_iff_not, not_exists, not_and]
          exact hne
        rw [this]
        simp
      · intro k hk
        rw [if_neg]
        intro he
        exact hm (mem_cols.1 (by
          rw [← he]
          unfold knownCol
          rw [List.getD_eq_getElem _ _ (by simpa [canonicalOrder_length] using Finset.mem_range.1 hk)]
          exact List.getElem_mem _))
  rw [Finset.sum_congr rfl fun j hj => by rw [hentry j (Finset.mem_range.1 hj)]]
  simp only [sub_mul, Finset.sum_sub_distrib]
  congr 1
  · simp only [Finset.sum_mul]
    rw [Finset.sum_comm]
    apply Finset.sum_congr rfl
    intro k hk
    simp only [ite_mul, zero_mul]
    rw [Finset.sum_ite_eq, if_pos (Finset.mem_range.2 (knownCol_lt h (Finset.mem_range.1 hk)))]
  · -- the objective
    have hobj : ∀ j, j < n → (dense p.objective).getD j 0 = ((a.objective.ents.filter fun e => e.2.1 == j).map fun e => e.2.2).sum := by
      intro j hj
      rw [hs.objective]
      split
      · rename_i h0
        have : a.objective.ents = [] := by
          rw [List.eq_nil_iff_forall_not_mem]
          intro e he
          have := h.objective.colsIn e he
          omega
        rw [this, dense_getD (by simp; omega)]
      · rename_i h0
        have hc : a.objective.cols = n := h.objCols.resolve_left h0
        rw [dense_getD (by simp only [canonicalOrder]; omega)]
        exact (((canonicalOrder_perm a.objective).filter _).map _).sum_eq
    have : ∀ j ∈ Finset.range n, (if (a.known.ents.map fun d => d.2.1).contains j then 0 else (dense p.objective).getD j 0) * x j =
        (((a.objective.ents.filter fun e => !((a.known.ents.map fun d => d.2.1).contains e.2.1)).filter fun e => e.2.1 == j).map
          fun e => e.2.2 * x e.2.1).sum := by
      intro j hj
      rw [hobj j (Finset.mem_range.1 hj), List.filter_filter]
      have e1 : (a.objective.ents.filter fun e => e.2.1 == j && !((a.known.ents.map fun d => d.2.1).contains e.2.1)) =
          (a.objective.ents.filter fun e => e.2.1 == j).filter fun _ => !((a.known.ents.map fun d => d.2.1).contains j) := by
        rw [List.filter_filter]
        apply List.filter_congr
        intro e _
        by_cases he : e.2.1 = j
        · subst he; rw [Bool.and_comm]
        · have hb : (e.2.1 == j) = false := by simpa using he
          rw [hb, Bool.false_and, Bool.and_false]
      rw [e1]
      generalize hc : (a.known.ents.map fun d => d.2.1).contains j = c
      cases c with
      | true => simp
      | false =>
        simp only [Bool.not_false, List.filter_true, Bool.false_eq_true, if_false]
        rw [← List.sum_map_mul_right]
        congr 1
        apply List.map_congr_left
        intro e he
        have := (List.mem_filter.1 he).2
        rw [show e.2.1 = j by simpa using this]
    rw [Finset.sum_congr rfl this]
    unfold unknownObjective
    have hin : ∀ e ∈ (a.objective.ents.filter fun e => !((a.known.ents.map fun d => d.2.1).contains e.2.1)), e.2.1 < n :=
      fun e he => (h.objective.inRange e (List.mem_filter.1 he).1).2
    generalize (a.objective.ents.filter fun e => !((a.known.ents.map fun d => d.2.1).contains e.2.1)) = l at hin
    induction l with
    | nil => simp
    | cons e l ih =>
      have := ih fun d hd => hin d (List.mem_cons_of_mem _ hd)
      simp only [List.map_cons, List.sum_cons]
      rw [← this, ← Finset.sum_ite_eq_of_mem (Finset.range n) e.2.1 (fun _ => e.2.2 * x e.2.1) (Finset.mem_range.2 (hin e (by simp))), ← Finset.sum_add_distrib]
      apply Finset.sum_congr rfl
      intro j _
      by_cases he : e.2.1 = j <;> simp [he]

end Verif.LpSolver

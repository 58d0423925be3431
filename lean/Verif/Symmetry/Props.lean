import Verif.Symmetry.Lemmas
import Verif.Scenario.Props
/-
C14: inflation symmetries are exactly the source-copy relabellings; C15: they respect the operator relations.
-/
namespace Verif.Symmetry
open Verif.Scenario Verif.Canon Verif.Canon.Spec
variable (S : Scenario)

/-! ## C14 -/

/-- **C14.** The rows returned are exactly the permutations of the operator list that come from
permuting, independently for every source, the copies of that source. -/
theorem C14_symmetries_are_relabellings (r : List Nat) :
    r ∈ lexorderSymmetries S ↔ ∃ g, Relabelling S g ∧ Induces S g r := by
  rw [mem_symmetries]
  constructor
  · rintro ⟨g, h1, h2⟩; exact ⟨g, h1, (induces_iff S h1).2 h2⟩
  · rintro ⟨g, h1, h2⟩; exact ⟨g, h1, (induces_iff S h1).1 h2⟩

/-- **C14, every relabelling is found.** No symmetry is dropped (the `KeyError` branch is dead). -/
theorem C14_no_symmetry_missed (g : Nat → Nat → Nat) (hg : Relabelling S g) :
    ∃ r ∈ lexorderSymmetries S, Induces S g r :=
  ⟨_, (mem_symmetries S).2 ⟨g, hg, rfl⟩, (induces_iff S hg).2 rfl⟩

/-- **C14, identity first.** -/
theorem C14_identity_first :
    (lexorderSymmetries S).head? = some (List.range S.lexorder.length) := by
  rw [symmetries_eq_foldl]
  apply head_fold
  · intro s hs; simpa using hs
  · rfl

/-- **C14, count.** There is one row per tuple of copy permutations. -/
theorem C14_count :
    (lexorderSymmetries S).length = ((List.range S.nSources).map fun s => (S.level s).factorial).prod := by
  rw [symmetries_eq_foldl, length_fold, prod_filter_factorial]
  · simp
  · intro s hs; simpa using hs

theorem row_length {r : List Nat} (h : r ∈ lexorderSymmetries S) : r.length = S.lexorder.length := by
  obtain ⟨g, _, rfl⟩ := (mem_symmetries S).1 h
  exact inducedRow_length S g

/-- **C14, permutations.** Every row is a permutation of the ranks. -/
theorem C14_rows_are_permutations (r : List Nat) (h : r ∈ lexorderSymmetries S) :
    r.Perm (List.range S.lexorder.length) := by
  obtain ⟨g, hg, rfl⟩ := (mem_symmetries S).1 h
  have hnd : (inducedRow S g).Nodup := by
    apply List.Nodup.map_on _ (lexorder_nodup S)
    intro a ha b hb e
    have va := (mem_lexorder S).1 ha
    have vb := (mem_lexorder S).1 hb
    have := (List.idxOf_inj ((mem_lexorder S).2 (act_valid S hg va))).1 e
    exact act_inj S hg va vb this
  have hsub : inducedRow S g ⊆ List.range S.lexorder.length := by
    intro x hx
    simp only [inducedRow, List.mem_map] at hx
    obtain ⟨op, hop, rfl⟩ := hx
    rw [List.mem_range, List.idxOf_lt_length_iff]
    exact (mem_lexorder S).2 (act_valid S hg ((mem_lexorder S).1 hop))
  exact (hnd.subperm hsub).perm_of_length_le (by simp [inducedRow])

/-- **C14, group.** Applying one symmetry after another is a symmetry, and every symmetry
has an inverse among the rows. -/
theorem C14_group (r t : List Nat) (hr : r ∈ lexorderSymmetries S) (ht : t ∈ lexorderSymmetries S) :
    (t.map fun k => r.getD k 0) ∈ lexorderSymmetries S ∧
    ∃ u ∈ lexorderSymmetries S, (r.map fun k => u.getD k 0) = List.range S.lexorder.length := by
  obtain ⟨g, hg, rfl⟩ := (mem_symmetries S).1 hr
  obtain ⟨h, hh, rfl⟩ := (mem_symmetries S).1 ht
  refine ⟨?_, inducedRow S (invRel S g), ?_, ?_⟩
  · rw [← inducedRow_comp S hh]
    exact (mem_symmetries S).2 ⟨_, relabelling_comp S hg hh, rfl⟩
  · exact (mem_symmetries S).2 ⟨_, relabelling_inv S hg, rfl⟩
  · rw [← inducedRow_comp S hg, ← inducedRow_id]
    apply inducedRow_congr
    intro s hs c hc
    have hgc : g s c ≤ max (S.level s) 1 := by
      rcases Nat.eq_zero_or_pos c with rfl | h0
      · rw [(hg s hs).1]; omega
      · exact ((hg s hs).2.1 c h0 hc).2
    have := invRel_spec S hg hs hgc
    exact hg.inj hs this.1 hc this.2

/-- Two relabellings with the same row agree on every source that is measured by someone. -/
theorem inducedRow_inj {g h : Nat → Nat → Nat} (hg : Relabelling S g) (hh : Relabelling S h)
    (e : inducedRow S g = inducedRow S h) {s p : Nat} (hs : s < S.nSources) (hp : p < S.nParties) (hhyp : S.hyp s p = true)
    (h1 : 0 < S.settings p) (h2 : 0 < S.outcomes p) {c : Nat} (hc : c ≤ max (S.level s) 1) : g s c = h s c := by
  rcases Nat.eq_zero_or_pos c with rfl | h0
  · rw [(hg s hs).1, (hh s hs).1]
  let op : Op := ⟨p + 1, (List.range S.nSources).map
    (fun t => if t = s then c else if S.hyp t p then 1 else 0), 0, 0⟩
  have hv : Valid S op := by
    refine ⟨by simp [op], by simp [op]; omega, by simp [op], ?_, by simpa [op] using h1, by simpa [op] using h2⟩
    intro t ht
    simp only [op, List.getElem_map, List.getElem_range, Nat.add_sub_cancel]
    by_cases hts : t = s
    · subst hts
      simp only [hhyp, if_true]; omega
    · by_cases ht2 : S.hyp t p = true
      · simp only [hts, ht2, if_true, if_false]; omega
      · simp [hts, ht2]
  have hm := (mem_lexorder S).2 hv
  have e2 : S.lexorder.idxOf (act g op) = S.lexorder.idxOf (act h op) := by
    have hlt := List.idxOf_lt_length_iff.2 hm
    have e3 := congrArg (fun l : List Nat => l[S.lexorder.idxOf op]?) e
    simp only [inducedRow, List.getElem?_map, List.getElem?_eq_getElem hlt, List.getElem_idxOf,
      Option.map_some, Option.some.injEq] at e3
    exact e3
  have e4 := (List.idxOf_inj ((mem_lexorder S).2 (act_valid S hg hv))).1 e2
  have e5 := congrArg (fun o : Op => o.copies[s]?) e4
  simpa [act, op, hs] using e5

theorem single_inj {s : Nat} {p q : List Nat} {n : Nat} (hp : p.Perm (List.range n)) (hq : q.Perm (List.range n))
    (h : ∀ c, c ≤ n → single s p s c = single s q s c) : p = q := by
  have hpl : p.length = n := by simpa using hp.length_eq
  have hql : q.length = n := by simpa using hq.length_eq
  apply List.ext_getElem (by omega)
  intro i hi hi'
  have := h (i + 1) (by omega)
  simp only [single, if_true] at this
  rw [format_get hp (by omega) (by omega), format_get hq (by omega) (by omega)] at this
  simpa using this

theorem nodup_fold (l : List Nat) (hl : ∀ s ∈ l, s < S.nSources ∧ 1 < S.level s) (hn : l.Nodup)
    (hmeas : ∀ s ∈ l, ∃ p, p < S.nParties ∧ S.hyp s p = true ∧ 0 < S.settings p ∧ 0 < S.outcomes p)
    (done : List Nat) (hd : ∀ s ∈ l, s ∉ done) (rows : List (List Nat)) (hrn : rows.Nodup)
    (hrows : ∀ r, r ∈ rows ↔ ∃ g, Relabelling S g ∧ SupportedOn S done g ∧ r = inducedRow S g) :
    ((l.map (oneSource S)).foldl permCombiner rows).Nodup := by
  induction l generalizing done rows with
  | nil => exact hrn
  | cons s l ih =>
    rw [List.nodup_cons] at hn
    obtain ⟨hs, hlev⟩ := hl s (by simp)
    have hm : max (S.level s) 1 = S.level s := by omega
    simp only [List.map_cons, List.foldl_cons]
    apply ih (fun t ht => hl t (by simp [ht])) hn.2 (fun t ht => hmeas t (by simp [ht])) (done ++ [s])
    · intro t ht
      simp only [List.mem_append, List.mem_singleton, not_or]
      exact ⟨hd t (by simp [ht]), fun e => hn.1 (e ▸ ht)⟩
    · obtain ⟨p, hp, hh, hset, hout⟩ := hmeas s (by simp)
      rw [oneSource_eq S hs (by omega)]
      unfold permCombiner
      have key : ∀ o ∈ rows, ∀ o' ∈ rows, ∀ q ∈ permutations (S.level s), ∀ q' ∈ permutations (S.level s),
          ((inducedRow S (single s q)).map fun k => o.getD k 0) =
            ((inducedRow S (single s q')).map fun k => o'.getD k 0) → o = o' ∧ q = q' := by
        intro o ho o' ho' q hq q' hq' e
        obtain ⟨g, hg, hsup, rfl⟩ := (hrows o).1 ho
        obtain ⟨g', hg', hsup', rfl⟩ := (hrows o').1 ho'
        rw [mem_permutations] at hq hq'
        have r1 := relabelling_single S (s := s) (by omega) hq
        have r2 := relabelling_single S (s := s) (by omega) hq'
        rw [← inducedRow_comp S r1, ← inducedRow_comp S r2] at e
        have hsd : s ∉ done := hd s (by simp)
        have hqq : q = q' := by
          apply single_inj (s := s) hq hq'
          intro c hc
          have h1 : ∀ x, x.Perm (List.range (S.level s)) → single s x s c ≤ max (S.level s) 1 := by
            intro x hx
            rcases Nat.eq_zero_or_pos c with rfl | h0
            · simp [single, formatPermutation]
            · exact ((relabelling_single S (s := s) (by omega) hx s hs).2.1 c h0 (by omega)).2
          have := inducedRow_inj S (relabelling_comp S hg r1) (relabelling_comp S hg' r2) e hs hp hh hset hout
            (c := c) (by omega)
          rw [hsup s hsd _ (h1 q hq), hsup' s hsd _ (h1 q' hq')] at this
          exact this
        subst hqq
        refine ⟨?_, rfl⟩
        -- cancel the last permutation
        have hinv := relabelling_inv S r1
        have e2 : inducedRow S (fun s_1 c => g s_1 (single s q s_1 (invRel S (single s q) s_1 c))) =
            inducedRow S (fun s_1 c => g' s_1 (single s q s_1 (invRel S (single s q) s_1 c))) := by
          have a := inducedRow_comp S (g := fun s_1 c => g s_1 (single s q s_1 c)) hinv
          have b := inducedRow_comp S (g := fun s_1 c => g' s_1 (single s q s_1 c)) hinv
          rw [a, b, e]
        have c1 : ∀ k : Nat → Nat → Nat, inducedRow S (fun s_1 c => k s_1 (single s q s_1 (invRel S (single s q) s_1 c))) =
            inducedRow S k := by
          intro k
          apply inducedRow_congr
          intro t ht c hc
          rw [(invRel_spec S r1 ht hc).2]
        rw [c1, c1] at e2
        exact e2
      rw [List.nodup_flatMap]
      constructor
      · intro o ho
        rw [List.map_map]
        apply List.Nodup.map_on _ (nodup_permsAux List.nodup_range)
        intro q hq q' hq' e
        exact (key o ho o ho q hq q' hq' e).2
      · refine List.Pairwise.imp_of_mem ?_ hrn
        intro o o' ho ho' hne
        rw [Function.onFun, List.disjoint_left]
        intro x hx hy
        simp only [List.mem_map] at hx hy
        obtain ⟨_, ⟨q, hq, rfl⟩, rfl⟩ := hx
        obtain ⟨_, ⟨q', hq', rfl⟩, e⟩ := hy
        exact hne (key o' ho' o ho q' hq' q hq e).1.symm
    · intro r
      have := fold_mem S [s] (by simpa using hl s (by simp)) (by simp) done (by simpa using hd s (by simp))
        rows hrows r
      simpa using this

/-- **C14, no repetition.** If every source is measured by some party, different rows are listed once. -/
theorem C14_rows_nodup
    (hmeas : ∀ s, s < S.nSources → ∃ p, p < S.nParties ∧ S.hyp s p = true ∧ 0 < S.settings p ∧ 0 < S.outcomes p) :
    (lexorderSymmetries S).Nodup := by
  rw [symmetries_eq_foldl]
  apply nodup_fold S _ _ _ _ [] (by simp) _ (by simp)
  · intro r
    simp only [List.mem_singleton]
    constructor
    · rintro rfl
      exact ⟨fun _ c => c, relabelling_id S, fun s _ c _ => rfl, (inducedRow_id S).symm⟩
    · rintro ⟨g, _, hs, rfl⟩
      rw [← inducedRow_id]
      apply inducedRow_congr
      intro s _ c hc
      exact hs s (by simp) c hc
  · intro s hs; simpa using hs
  · exact List.nodup_range.filter _
  · intro s hs
    simp only [List.mem_filter, List.mem_range] at hs
    exact hmeas s hs.1

/-- Two parties; source 0 feeds both, source 1 feeds only the second; two copies of each. -/
def exScenario : Scenario where
  nParties := 2
  nSources := 2
  outcomes := fun _ => 1
  settings := fun _ => 1
  hyp := fun s p => s == 0 || p == 1
  level := fun _ => 2

example : (lexorderSymmetries exScenario).length = 4 ∧ exScenario.lexorder.length = 6 ∧
    lexorderSymmetries exScenario =
      [[0, 1, 2, 3, 4, 5], [0, 1, 3, 2, 5, 4], [1, 0, 4, 5, 2, 3], [1, 0, 5, 4, 3, 2]] := by decide

example : Relabelling exScenario (fun s c => if s = 1 ∧ 0 < c then 3 - c else c) := by
  intro s _
  have hl : max (exScenario.level s) 1 = 2 := rfl
  rw [hl]
  refine ⟨by simp, ?_, ?_⟩
  · intro c h1 h2
    simp only
    split <;> omega
  · intro c d h1 h2 h3 h4 e
    simp only at e
    split at e <;> split at e <;> omega

/-! ## C15 -/

/-- Image of a rank under a row (ranks outside the list stay put). -/
def img (r : List Nat) (x : Nat) : Nat := r.getD x x

theorem sdp_row {r : List Nat} (h : r ∈ sdpSymmetries S) :
    ∃ g, Relabelling S g ∧ r = padRow (inducedRow S g) := by
  simp only [sdpSymmetries, List.mem_map] at h
  obtain ⟨q, hq, rfl⟩ := h
  obtain ⟨g, hg, rfl⟩ := (mem_symmetries S).1 hq
  exact ⟨g, hg, rfl⟩

theorem img_cases {g : Nat → Nat → Nat} (hg : Relabelling S g) (x : Nat) :
    (x = 0 ∧ img (padRow (inducedRow S g)) x = 0) ∨
    (S.lexorder.length < x ∧ img (padRow (inducedRow S g)) x = x) ∨
    (∃ (i j : Nat) (hi : i < S.lexorder.length), x = i + 1 ∧ img (padRow (inducedRow S g)) x = j + 1 ∧
      j < S.lexorder.length ∧ S.lexorder[j]? = some (act g S.lexorder[i])) := by
  rcases Nat.eq_zero_or_pos x with rfl | h0
  · exact .inl ⟨rfl, by simp [img, padRow]⟩
  · obtain ⟨i, rfl⟩ : ∃ i, x = i + 1 := ⟨x - 1, by omega⟩
    by_cases hi : i < S.lexorder.length
    · obtain ⟨j, h1, h2, h3⟩ := inducedRow_get S hg hi
      refine .inr (.inr ⟨i, j, hi, rfl, ?_, h2, h3⟩)
      simp [img, padRow, List.getD_eq_getElem?_getD, h1]
    · refine .inr (.inl ⟨by omega, ?_⟩)
      simp [img, padRow, List.getD_eq_getElem?_getD, inducedRow, List.getElem?_eq_none (by omega : S.lexorder.length ≤ i)]

theorem commMat_act (tbl : Nat → Nat → List Nat) (q : Bool) (hs : ∀ p q, tbl p q = tbl q p)
    {g : Nat → Nat → Nat} (hg : Relabelling S g) {i j i' j' : Nat}
    (hi : i < S.lexorder.length) (hj : j < S.lexorder.length)
    (hi' : i' < S.lexorder.length) (hj' : j' < S.lexorder.length)
    (ei : S.lexorder[i']? = some (act g S.lexorder[i])) (ej : S.lexorder[j']? = some (act g S.lexorder[j])) :
    S.notcomm tbl q i' j' = S.notcomm tbl q i j := by
  unfold Scenario.notcomm
  split
  swap
  · rfl
  rw [List.getElem?_eq_getElem hi'] at ei
  rw [List.getElem?_eq_getElem hj'] at ej
  simp only [Option.some.injEq] at ei ej
  have vi := lex_valid S hi
  have vj := lex_valid S hj
  have hne : i' = j' ↔ i = j := by
    constructor
    · rintro rfl
      have := act_inj S hg vi vj (ei.symm.trans ej)
      exact (lexorder_nodup S).getElem_inj_iff.1 this
    · rintro rfl
      exact (lexorder_nodup S).getElem_inj_iff.1 (ei.trans ej.symm)
  have full : ∀ a b (ha : a < S.lexorder.length) (hb : b < S.lexorder.length), a ≠ b →
      commutationMatrix S.lexorder tbl false a b = !(operatorsCommute tbl S.lexorder[a] S.lexorder[b]) := by
    intro a b ha hb hab
    rcases Nat.lt_or_ge a b with h | h
    · exact commutationMatrix_lt h hb
    · rw [commutationMatrix_symm, commutationMatrix_lt (by omega) ha, operatorsCommute_symm hs]
  by_cases hij : i = j
  · have := hne.2 hij
    subst hij; subst this
    rw [commutationMatrix_diag, commutationMatrix_diag]
  · rw [full i j hi hj hij, full i' j' hi' hj' (fun h => hij (hne.1 h)), ei, ej, operatorsCommute_act S tbl hg vi vj]

/-- **C15, commutation.** Two operators commute iff their images under a symmetry commute. -/
theorem C15_symmetry_preserves_commutation (D : DagInput) (q : Bool) (r : List Nat) (h : r ∈ sdpSymmetries S)
    (x y : Nat) :
    padMat (S.notcomm D.tbl q) (img r x) (img r y) = padMat (S.notcomm D.tbl q) x y := by
  obtain ⟨g, hg, rfl⟩ := sdp_row S h
  have hout : ∀ a b, S.lexorder.length ≤ a ∨ S.lexorder.length ≤ b → S.notcomm D.tbl q a b = false := by
    intro a b h
    unfold Scenario.notcomm
    split
    · exact commutationMatrix_out h
    · rfl
  rcases img_cases S hg x with ⟨rfl, ex⟩ | ⟨hx, ex⟩ | ⟨i, i', hi, rfl, ex, hi', ei⟩
  · rw [ex]; simp [padMat]
  · rw [ex]
    unfold padMat
    rw [hout (x - 1) _ (.inl (by omega)), hout (x - 1) _ (.inl (by omega))]
    simp
  · rcases img_cases S hg y with ⟨rfl, ey⟩ | ⟨hy, ey⟩ | ⟨j, j', hj, rfl, ey, hj', ej⟩
    · rw [ey]; simp [padMat]
    · rw [ey]
      unfold padMat
      rw [hout _ (y - 1) (.inr (by omega)), hout _ (y - 1) (.inr (by omega))]
      simp
    · rw [ex, ey]
      simp only [padMat, Nat.zero_lt_succ, decide_true, Bool.and_self, Bool.true_and, Nat.add_sub_cancel]
      exact commMat_act S D.tbl q (C45_table_symmetric D) hg hi hj hi' hj' ei ej

/-- **C15, orthogonality.** Two operators are orthogonal iff their images are. -/
theorem C15_symmetry_preserves_orthogonality (r : List Nat) (h : r ∈ sdpSymmetries S) (x y : Nat) :
    S.orthomat (img r x) (img r y) = S.orthomat x y := by
  obtain ⟨g, hg, rfl⟩ := sdp_row S h
  have hlt : ∀ x, img (padRow (inducedRow S g)) x < S.sdpLexorder.length ↔ x < S.sdpLexorder.length := by
    intro x
    rw [sdpLexorder_length]
    rcases img_cases S hg x with ⟨rfl, ex⟩ | ⟨hx, ex⟩ | ⟨i, i', hi, rfl, ex, hi', ei⟩ <;> omega
  have h0 : ∀ x, img (padRow (inducedRow S g)) x = 0 ↔ x = 0 := by
    intro x
    rcases img_cases S hg x with ⟨rfl, ex⟩ | ⟨hx, ex⟩ | ⟨i, i', hi, rfl, ex, hi', ei⟩ <;> omega
  unfold Scenario.orthomat
  simp only [hlt, h0]
  by_cases hl : x < S.sdpLexorder.length ∧ y < S.sdpLexorder.length
  swap
  · rw [if_neg hl, if_neg hl]
  rw [if_pos hl, if_pos hl]
  by_cases hz : x = 0 ∨ y = 0
  · rw [if_pos hz, if_pos hz]
  rw [if_neg hz, if_neg hz]
  rw [sdpLexorder_length] at hl
  rcases img_cases S hg x with ⟨rfl, ex⟩ | ⟨hx, ex⟩ | ⟨i, i', hi, rfl, ex, hi', ei⟩
  · exact absurd (.inl rfl) hz
  · omega
  rcases img_cases S hg y with ⟨rfl, ey⟩ | ⟨hy, ey⟩ | ⟨j, j', hj, rfl, ey, hj', ej⟩
  · exact absurd (.inr rfl) hz
  · omega
  rw [ex, ey]
  simp only [Scenario.sdpLexorder, List.getElem?_cons_succ, ei, ej, List.getElem?_eq_getElem hi,
    List.getElem?_eq_getElem hj]
  have vi := lex_valid S hi
  have vj := lex_valid S hj
  have e1 : (i' + 1 != j' + 1) = (i + 1 != j + 1) := by
    have : i' = j' ↔ i = j := by
      rw [List.getElem?_eq_getElem hi'] at ei
      rw [List.getElem?_eq_getElem hj'] at ej
      simp only [Option.some.injEq] at ei ej
      constructor
      · rintro rfl
        exact (lexorder_nodup S).getElem_inj_iff.1 (act_inj S hg vi vj (ei.symm.trans ej))
      · rintro rfl
        exact (lexorder_nodup S).getElem_inj_iff.1 (ei.trans ej.symm)
    by_cases hh : i = j
    · simp [hh, this.2 hh]
    · have h2 : ¬ i' = j' := fun hc => hh (this.1 hc)
      simp [bne, hh, h2]
  have e2 : ((act g S.lexorder[i]).copies == (act g S.lexorder[j]).copies) =
      (S.lexorder[i].copies == S.lexorder[j].copies) := by
    rw [Bool.eq_iff_iff, beq_iff_eq, beq_iff_eq]
    constructor
    · intro e
      let b : Op := { S.lexorder[i] with copies := S.lexorder[i].copies }
      apply List.ext_getElem
      · rw [vi.copies_len, vj.copies_len]
      · intro t ht ht'
        have e' := congrArg (fun l : List Nat => l[t]?) e
        simp only [act, List.getElem?_mapIdx, List.getElem?_eq_getElem ht, List.getElem?_eq_getElem ht',
          Option.map_some, Option.some.injEq] at e'
        have a := vi.copy_le (s := t) (c := S.lexorder[i].copies[t]) (by simp)
        have b := vj.copy_le (s := t) (c := S.lexorder[j].copies[t]) (by simp)
        exact hg.inj a.1 a.2 b.2 e'
    · intro e
      simp only [act, e]
  rw [e1, e2]
  rfl

theorem opEq_map {N : Nat} {comm ortho : Nat → Nat → Prop} (σ : Nat → Nat) (h0 : σ 0 = 0) (hN : ∀ x, x < N → σ x < N)
    (hc : ∀ a b, comm a b → comm (σ a) (σ b)) (ho : ∀ a b, ortho a b → ortho (σ a) (σ b)) {u v : List Nat}
    (h : OpEq N comm ortho u v) : OpEq N comm ortho (u.map σ) (v.map σ) := by
  induction h with
  | refl w => exact .refl _
  | symm _ ih => exact .symm ih
  | trans _ _ ih1 ih2 => exact .trans ih1 ih2
  | swap u a b v hab =>
    simp only [List.map_append, List.map_cons]
    exact .swap _ _ _ _ (hc a b hab)
  | idem u a v =>
    simp only [List.map_append, List.map_cons]
    exact .idem _ _ _
  | zero u a b v hlt hab =>
    simp only [List.map_append, List.map_cons, List.map_nil, h0]
    apply OpEq.zero _ _ _ _ _ (ho a b hab)
    intro x hx
    have : x ∈ (u ++ a :: b :: v).map σ := by simpa using hx
    rw [List.mem_map] at this
    obtain ⟨y, hy, rfl⟩ := this
    exact hN y (hlt y hy)

/-- **C15, monomials.** Two monomials have the same canonical form iff their images under a symmetry do. -/
theorem C15_symmetry_preserves_canonical_equality (D : DagInput) (q : Bool) (r : List Nat)
    (h : r ∈ sdpSymmetries S) (u v : List Nat)
    (hu : ∀ x ∈ u, x < S.sdpLexorder.length) (hv : ∀ x ∈ v, x < S.sdpLexorder.length) :
    toCanonical (padMat (S.notcomm D.tbl q)) S.orthomat false false (u.map (img r)) =
        toCanonical (padMat (S.notcomm D.tbl q)) S.orthomat false false (v.map (img r)) ↔
      toCanonical (padMat (S.notcomm D.tbl q)) S.orthomat false false u =
        toCanonical (padMat (S.notcomm D.tbl q)) S.orthomat false false v := by
  have hN : ∀ r ∈ sdpSymmetries S, ∀ x, x < S.sdpLexorder.length → img r x < S.sdpLexorder.length := by
    intro r h x hx
    obtain ⟨g, hg, rfl⟩ := sdp_row S h
    rw [sdpLexorder_length] at *
    rcases img_cases S hg x with ⟨rfl, ex⟩ | ⟨hx, ex⟩ | ⟨i, i', hi, rfl, ex, hi', ei⟩ <;> omega
  have h0 : ∀ r ∈ sdpSymmetries S, img r 0 = 0 := by
    intro r h
    obtain ⟨g, hg, rfl⟩ := sdp_row S h
    simp [img, padRow]
  have fwd : ∀ r ∈ sdpSymmetries S, ∀ u v,
      OpEq S.sdpLexorder.length (fun a b => padMat (S.notcomm D.tbl q) a b = false)
        (fun a b => S.orthomat a b = true) u v →
      OpEq S.sdpLexorder.length (fun a b => padMat (S.notcomm D.tbl q) a b = false)
        (fun a b => S.orthomat a b = true) (u.map (img r)) (v.map (img r)) := by
    intro r h u v huv
    apply opEq_map (img r) (h0 r h) (hN r h) _ _ huv
    · intro a b hab
      rw [C15_symmetry_preserves_commutation S D q r h]; exact hab
    · intro a b hab
      rw [C15_symmetry_preserves_orthogonality S r h]; exact hab
  have bnd : ∀ r ∈ sdpSymmetries S, ∀ w : List Nat, (∀ x ∈ w, x < S.sdpLexorder.length) →
      ∀ x ∈ w.map (img r), x < S.sdpLexorder.length := by
    intro r h w hw x hx
    rw [List.mem_map] at hx
    obtain ⟨y, hy, rfl⟩ := hx
    exact hN r h y (hw y hy)
  rw [C03_every_scenario S D q _ _ (bnd r h u hu) (bnd r h v hv), C03_every_scenario S D q _ _ hu hv]
  refine ⟨fun huv => ?_, fwd r h u v⟩
  -- undo with the inverse row
  simp only [sdpSymmetries, List.mem_map] at h
  obtain ⟨p, hp, rfl⟩ := h
  obtain ⟨_, s, hs, hinv⟩ := C14_group S p p hp hp
  have hsm : padRow s ∈ sdpSymmetries S := List.mem_map.2 ⟨s, hs, rfl⟩
  have := fwd (padRow s) hsm _ _ huv
  have undo : ∀ w : List Nat, (∀ x ∈ w, x < S.sdpLexorder.length) → (w.map (img (padRow p))).map (img (padRow s)) = w := by
    intro w hw
    rw [List.map_map]
    conv => rhs; rw [← List.map_id w]
    apply List.map_congr_left
    intro x hx
    have hx' := hw x hx
    rw [sdpLexorder_length] at hx'
    simp only [Function.comp_apply, id]
    rcases Nat.eq_zero_or_pos x with rfl | hpos
    · simp [img, padRow]
    · obtain ⟨i, rfl⟩ : ∃ i, x = i + 1 := ⟨x - 1, by omega⟩
      have hi : i < S.lexorder.length := by omega
      have hpl := row_length S hp
      have hsl := row_length S hs
      have e := congrArg (fun l : List Nat => l[i]?) hinv
      simp only [List.getElem?_map, List.getElem?_range hi, List.getElem?_eq_getElem (by omega : i < p.length),
        Option.map_some, Option.some.injEq] at e
      have hpm : p[i]'(by omega) < S.lexorder.length := by
        have := (C14_rows_are_permutations S p hp).subset (List.getElem_mem (by omega : i < p.length))
        exact List.mem_range.1 this
      have e1 : img (padRow p) (i + 1) = p[i]'(by omega) + 1 := by
        simp [img, padRow, List.getD_eq_getElem?_getD, List.getElem?_eq_getElem (by omega : i < p.length)]
      rw [e1]
      rw [List.getD_eq_getElem _ _ (by omega)] at e
      simp only [img, padRow, List.getD_cons_succ]
      rw [List.getD_eq_getElem _ _ (by simp; omega)]
      simp [e]
  rwa [undo u hu, undo v hv] at this

example : sdpSymmetries exScenario ≠ [] ∧ [0, 2, 1, 6, 5, 4, 3] ∈ sdpSymmetries exScenario := by decide

end Verif.Symmetry

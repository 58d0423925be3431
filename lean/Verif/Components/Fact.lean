import Verif.Components.Lemmas
import Verif.Common.SortLemmas
import Verif.Scenario.CommuteLemmas
namespace Verif.Components
open Verif.Scenario Verif.Common

theorem foldl_max_spec (l : List Nat) (a : Nat) :
    (∀ x ∈ l, x ≤ l.foldl max a) ∧ a ≤ l.foldl max a ∧ (l.foldl max a = a ∨ l.foldl max a ∈ l) := by
  induction l generalizing a with
  | nil => simp
  | cons b l ih =>
    obtain ⟨h1, h2, h3⟩ := ih (max a b)
    simp only [List.foldl_cons, List.mem_cons]
    refine ⟨?_, by omega, ?_⟩
    · rintro x (rfl | hx)
      · omega
      · exact h1 x hx
    · rcases h3 with h3 | h3
      · rw [h3]
        rcases Nat.le_total a b with h | h
        · right; left; omega
        · left; omega
      · right; right; exact h3

theorem existsSharedSource_iff {I J : List Nat} :
    existsSharedSource I J = true ↔ ∃ s c : Nat, c ≠ 0 ∧ I[s]? = some c ∧ J[s]? = some c := by
  unfold existsSharedSource
  have hm : (∃ t ∈ (List.zip I J).filter (fun t => t.1 != 0 && t.2 != 0), t.1 = t.2) ↔
      ∃ s c : Nat, c ≠ 0 ∧ I[s]? = some c ∧ J[s]? = some c := by
    constructor
    · rintro ⟨⟨x, y⟩, h1, h2⟩
      simp only [List.mem_filter, Bool.and_eq_true, bne_iff_ne] at h1 h2
      subst h2
      obtain ⟨s, hs⟩ := List.mem_iff_getElem?.1 h1.1
      rw [List.getElem?_zip_eq_some] at hs
      exact ⟨s, x, h1.2.1, hs.1, hs.2⟩
    · rintro ⟨s, c, hc, h1, h2⟩
      refine ⟨(c, c), ?_, rfl⟩
      simp only [List.mem_filter, Bool.and_eq_true, bne_iff_ne]
      refine ⟨List.mem_iff_getElem?.2 ⟨s, ?_⟩, hc, hc⟩
      rw [List.getElem?_zip_eq_some]
      exact ⟨h1, h2⟩
  rw [← hm]
  simp only
  split
  · rename_i h
    rw [List.isEmpty_iff] at h
    simp [h]
  · simp only [Bool.not_eq_true', List.all_eq_false, bne_iff_ne, not_not]

theorem existsSharedSource_symm (I J : List Nat) : existsSharedSource I J = existsSharedSource J I := by
  rw [Bool.eq_iff_iff, existsSharedSource_iff, existsSharedSource_iff]
  constructor <;> rintro ⟨s, c, h0, h1, h2⟩ <;> exact ⟨s, c, h0, h2, h1⟩

theorem overlapMatrix_iff {inds : List (List Nat)} {i j : Nat} :
    overlapMatrix inds i j = true ↔
      i = j ∨ existsSharedSource (inds.getD i []) (inds.getD j []) = true := by
  unfold overlapMatrix
  simp only [Bool.or_eq_true, Bool.and_eq_true, beq_iff_eq, decide_eq_true_eq]
  rw [existsSharedSource_symm (inds.getD j []) (inds.getD i [])]
  constructor
  · rintro (h | h | h)
    · exact .inl h
    · exact .inr h.2
    · exact .inr h.2
  · rintro (h | h)
    · exact .inl h
    · rcases Nat.lt_trichotomy i j with h' | h' | h'
      · exact .inr (.inr ⟨h', h⟩)
      · exact .inl h'
      · exact .inr (.inl ⟨h', h⟩)

theorem overlapMatrix_symm (inds : List (List Nat)) (i j : Nat) :
    overlapMatrix inds i j = overlapMatrix inds j i := by
  rw [Bool.eq_iff_iff, overlapMatrix_iff, overlapMatrix_iff, existsSharedSource_symm]
  constructor <;> rintro (h | h) <;> first | exact .inl h.symm | exact .inr h

variable (S : Scenario)

theorem mem_uniqueIndices {I : List Nat} :
    I ∈ uniqueIndices S ↔ ∃ p, p < S.nParties ∧ I ∈ S.inflationIndices p := by
  unfold uniqueIndices
  rw [mem_sortBy, mem_dedupB]
  simp

theorem nodup_uniqueIndices : (uniqueIndices S).Nodup :=
  (sortBy_perm _ _).nodup_iff.2 (nodup_dedupB _)

theorem copies_mem {i : Nat} (hi : i < S.lexorder.length) : S.lexorder[i].copies ∈ uniqueIndices S := by
  rw [mem_uniqueIndices]
  have hv := (mem_lexorder S).1 (List.getElem_mem hi)
  refine ⟨S.lexorder[i].party - 1, ?_, ?_⟩
  · have := hv.party_pos; have := hv.party_le; omega
  · rw [mem_inflationIndices]
    exact ⟨hv.copies_len, hv.copies_ok⟩

theorem position_eq {i : Nat} (hi : i < S.lexorder.length) :
    position S i = (uniqueIndices S).idxOf S.lexorder[i].copies := by
  unfold position
  rw [List.getElem?_eq_getElem hi]

theorem position_get {i : Nat} (hi : i < S.lexorder.length) :
    (uniqueIndices S).getD (position S i) [] = S.lexorder[i].copies := by
  rw [position_eq S hi, List.getD_eq_getElem _ _ (List.idxOf_lt_length_iff.2 (copies_mem S hi)), List.getElem_idxOf]

theorem position_inj {i j : Nat} (hi : i < S.lexorder.length) (hj : j < S.lexorder.length) :
    position S i = position S j ↔ S.lexorder[i].copies = S.lexorder[j].copies := by
  constructor
  · intro h
    rw [← position_get S hi, ← position_get S hj, h]
  · intro h
    rw [position_eq S hi, position_eq S hj, h]

theorem touch_iff {i j : Nat} (hi : i < S.lexorder.length) (hj : j < S.lexorder.length) :
    Touch S i j ↔ overlapMatrix (uniqueIndices S) (position S i) (position S j) = true := by
  rw [overlapMatrix_iff, position_inj S hi hj, position_get S hi, position_get S hj, existsSharedSource_iff]
  unfold Touch ShareCopy
  rw [List.getElem?_eq_getElem hi, List.getElem?_eq_getElem hj]
  constructor
  · rintro ⟨a, b, ha, hb, h⟩
    simp only [Option.some.injEq] at ha hb
    subst ha; subst hb; exact h
  · intro h
    exact ⟨_, _, rfl, rfl, h⟩

/-- The distinct positions of a monomial. -/
def uniqOf (mon : List Nat) : List Nat :=
  sortBy (fun a b => decide (a ≤ b)) (dedupB (mon.map (position S)))

/-- The vertex of an operator of the monomial. -/
def vert (mon : List Nat) (a : Nat) : Nat := (uniqOf S mon).idxOf (position S a)

/-- The adjacency between vertices. -/
def adjOf (mon : List Nat) (i j : Nat) : Bool :=
  overlapMatrix (uniqueIndices S) ((uniqOf S mon).getD i 0) ((uniqOf S mon).getD j 0)

variable {S} {mon : List Nat}

theorem mem_uniqOf {p : Nat} : p ∈ uniqOf S mon ↔ ∃ a ∈ mon, position S a = p := by
  unfold uniqOf
  rw [mem_sortBy, mem_dedupB]
  simp

theorem nodup_uniqOf : (uniqOf S mon).Nodup :=
  (sortBy_perm _ _).nodup_iff.2 (nodup_dedupB _)

theorem vert_lt {a : Nat} (ha : a ∈ mon) : vert S mon a < (uniqOf S mon).length :=
  List.idxOf_lt_length_iff.2 (mem_uniqOf.2 ⟨a, ha, rfl⟩)

theorem vert_get {a : Nat} (ha : a ∈ mon) : (uniqOf S mon).getD (vert S mon a) 0 = position S a := by
  rw [List.getD_eq_getElem _ _ (vert_lt ha)]
  exact List.getElem_idxOf _

theorem vert_surj {i : Nat} (hi : i < (uniqOf S mon).length) : ∃ a ∈ mon, vert S mon a = i := by
  obtain ⟨a, ha, h⟩ := mem_uniqOf.1 (List.getElem_mem hi)
  refine ⟨a, ha, ?_⟩
  unfold vert
  rw [h]
  exact nodup_uniqOf.idxOf_getElem i hi

theorem joined_iff (hv : ∀ a ∈ mon, a < S.lexorder.length) {a b : Nat} (ha : a ∈ mon) (hb : b ∈ mon) :
    Joined S mon a b ↔ Connected (uniqOf S mon).length (adjOf S mon) (vert S mon a) (vert S mon b) := by
  constructor
  · intro h
    clear hb
    induction h with
    | refl => exact .refl
    | tail _ h ih =>
      obtain ⟨h1, h2, h3⟩ := h
      refine ih.tail ⟨vert_lt h1, vert_lt h2, ?_⟩
      unfold adjOf
      rw [vert_get h1, vert_get h2, ← touch_iff S (hv _ h1) (hv _ h2)]
      exact h3
  · intro h
    generalize hk : vert S mon b = k at h
    induction h generalizing b with
    | refl =>
      refine .single ⟨ha, hb, ?_⟩
      rw [touch_iff S (hv _ ha) (hv _ hb), overlapMatrix_iff]
      left
      rw [← vert_get ha, ← vert_get hb, hk]
    | tail _ h ih =>
      obtain ⟨h1, h2, h3⟩ := h
      obtain ⟨c, hc, rfl⟩ := vert_surj h1
      refine (ih hc rfl).tail ⟨hc, hb, ?_⟩
      subst hk
      rw [touch_iff S (hv _ hc) (hv _ hb)]
      unfold adjOf at h3
      rwa [vert_get hc, vert_get hb] at h3

theorem flatten_filter_perm {α} (l : List α) (f : α → Nat) (K : Nat) (h : ∀ a ∈ l, f a < K) :
    ((List.range K).map fun i => l.filter fun a => f a == i).flatten.Perm l := by
  induction l with
  | nil => simp
  | cons a l ih =>
    have ih := ih (fun b hb => h b (by simp [hb]))
    have ha := h a (by simp)
    have key : ∀ L : List Nat, L.Nodup → f a ∈ L →
        (L.map fun i => (a :: l).filter fun a => f a == i).flatten.Perm
          (a :: (L.map fun i => l.filter fun a => f a == i).flatten) := by
      intro L
      induction L with
      | nil => intro _ h; simp at h
      | cons i L ihL =>
        intro hn hm
        rw [List.nodup_cons] at hn
        simp only [List.map_cons, List.flatten_cons]
        by_cases hi : f a = i
        · have : (L.map fun i => (a :: l).filter fun a => f a == i) = L.map fun i => l.filter fun a => f a == i := by
            apply List.map_congr_left
            intro j hj
            have hne : f a ≠ j := fun e => hn.1 (hi ▸ e ▸ hj)
            simp [hne]
          rw [this]
          simp [hi]
        · have hm' : f a ∈ L := by simpa [hi] using hm
          have hf : ((a :: l).filter fun a => f a == i) = l.filter fun a => f a == i := by
            simp [hi]
          rw [hf]
          exact ((ihL hn.2 hm').append_left _).trans List.perm_middle
    exact (key _ List.nodup_range (List.mem_range.2 ha)).trans (ih.cons a)

/-- Everything about the general path. -/
theorem factorizeGeneral_spec (hv : ∀ a ∈ mon, a < S.lexorder.length) (hne : mon ≠ [])
    (hcap : ∀ reps : List Nat, (∀ r ∈ reps, r ∈ mon) → reps.Pairwise (fun a b => ¬ Joined S mon a b) →
      reps.length ≤ 255) :
    ∃ (K : Nat) (lab : Nat → Nat), factorizeGeneral S mon = ((List.range K).map fun i => mon.filter fun a => lab a == i) ∧
      (∀ a ∈ mon, lab a < K) ∧ (∀ i < K, ∃ a ∈ mon, lab a = i) ∧
      (∀ a ∈ mon, ∀ b ∈ mon, lab a = lab b ↔ Joined S mon a b) := by
  have hsym : ∀ i j, adjOf S mon i j = adjOf S mon j i := fun i j => overlapMatrix_symm _ _ _
  have hcap' : ∀ reps : List Nat, (∀ r ∈ reps, r < (uniqOf S mon).length) →
      reps.Pairwise (fun a b => ¬ Connected (uniqOf S mon).length (adjOf S mon) a b) → reps.length ≤ 255 := by
    intro reps h1 h2
    -- pull back along vert
    have : ∃ reps' : List Nat, (∀ r ∈ reps', r ∈ mon) ∧ reps'.map (vert S mon) = reps := by
      clear h2
      induction reps with
      | nil => exact ⟨[], by simp, rfl⟩
      | cons r reps ih =>
        obtain ⟨L, hL1, hL2⟩ := ih (fun x hx => h1 x (by simp [hx]))
        obtain ⟨a, ha, hva⟩ := vert_surj (h1 r (by simp))
        refine ⟨a :: L, ?_, by simp [hL2, hva]⟩
        intro x hx
        simp only [List.mem_cons] at hx
        rcases hx with rfl | hx
        · exact ha
        · exact hL1 x hx
    obtain ⟨L, hL1, rfl⟩ := this
    rw [List.length_map]
    apply hcap L hL1
    rw [List.pairwise_map] at h2
    refine List.Pairwise.imp_of_mem ?_ h2
    intro a b ha hb hab hj
    exact hab ((joined_iff hv (hL1 a ha) (hL1 b hb)).1 hj)
  obtain ⟨reps, hr1, hr2, hr3⟩ := classify_reps hsym hcap'
  have hlab : ∀ a ∈ mon, ∀ k, (classify (uniqOf S mon).length (adjOf S mon)).getD (vert S mon a) 0 = k ↔
      ∃ r, reps[k]? = some r ∧ Connected (uniqOf S mon).length (adjOf S mon) r (vert S mon a) := by
    intro a ha k
    rw [← hr3 _ (vert_lt ha) k, List.getD_eq_getElem?_getD,
      List.getElem?_eq_getElem (by rw [classify_length]; exact vert_lt ha)]
    simp
  refine ⟨(classify (uniqOf S mon).length (adjOf S mon)).foldl max 0 + 1,
    fun a => (classify (uniqOf S mon).length (adjOf S mon)).getD (vert S mon a) 0, rfl, ?_, ?_, ?_⟩
  · intro a ha
    have h := (foldl_max_spec (classify (uniqOf S mon).length (adjOf S mon)) 0).1
      ((classify (uniqOf S mon).length (adjOf S mon)).getD (vert S mon a) 0) (by
        rw [List.getD_eq_getElem _ _ (by rw [classify_length]; exact vert_lt ha)]
        exact List.getElem_mem _)
    simp only
    omega
  · intro i hi
    obtain ⟨_, _, h3⟩ := foldl_max_spec (classify (uniqOf S mon).length (adjOf S mon)) 0
    generalize hM : (classify (uniqOf S mon).length (adjOf S mon)).foldl max 0 = M at *
    obtain ⟨a0, ha0⟩ := List.exists_mem_of_ne_nil mon hne
    have hex : ∃ j, j < (uniqOf S mon).length ∧ ∃ k, i ≤ k ∧
        (classify (uniqOf S mon).length (adjOf S mon))[j]? = some k := by
      rcases h3 with h3 | h3
      · refine ⟨vert S mon a0, vert_lt ha0, ?_⟩
        exact ⟨_, by omega, List.getElem?_eq_getElem (by rw [classify_length]; exact vert_lt ha0)⟩
      · obtain ⟨j, hj, e⟩ := List.getElem_of_mem h3
        refine ⟨j, by rwa [classify_length] at hj, M, by omega, ?_⟩
        rw [List.getElem?_eq_getElem hj, e]
    obtain ⟨j, hj, k, hk, hjk⟩ := hex
    obtain ⟨r, h1, _⟩ := (hr3 j hj k).1 hjk
    have hkl : k < reps.length := (List.getElem?_eq_some_iff.1 h1).1
    have hil : i < reps.length := by omega
    have hri := hr1 reps[i] (List.getElem_mem hil)
    obtain ⟨a, ha, hva⟩ := vert_surj hri
    refine ⟨a, ha, ?_⟩
    rw [hlab a ha i]
    exact ⟨reps[i], List.getElem?_eq_getElem hil, by rw [hva]; exact .refl⟩
  · intro a ha b hb
    rw [joined_iff hv ha hb]
    simp only
    constructor
    · intro h
      obtain ⟨r, h1, h2⟩ := (hlab b hb _).1 rfl
      obtain ⟨r', h1', h2'⟩ := (hlab a ha _).1 h
      rw [h1] at h1'
      simp only [Option.some.injEq] at h1'
      subst h1'
      exact (Connected.symm hsym h2').trans h2
    · intro h
      obtain ⟨r, h1, h2⟩ := (hlab a ha _).1 rfl
      exact ((hlab b hb _).2 ⟨r, h1, h2.trans h⟩).symm

/-! ### the shortcut -/

theorem everFactorizes_false (h : everFactorizes S = false) {p q : Nat} (hp : p < S.nParties) (hq : q < S.nParties) :
    (∃ s, s < S.nSources ∧ S.hyp s p = true ∧ S.hyp s q = true) ∧
    ∀ s, s < S.nSources → S.hyp s p = true → S.hyp s q = true → S.level s = 1 := by
  have key : ∀ p q, p < S.nParties → q < S.nParties → p ≤ q →
      (∃ s, s < S.nSources ∧ S.hyp s p = true ∧ S.hyp s q = true) ∧
      ∀ s, s < S.nSources → S.hyp s p = true → S.hyp s q = true → S.level s = 1 := by
    intro p q hp hq hpq
    unfold everFactorizes at h
    rw [List.any_eq_false] at h
    have h1 := h p (List.mem_range.2 hp)
    simp only [Bool.not_eq_true, List.any_eq_false] at h1
    have h2 := h1 q (List.mem_range.2 hq)
    simp only [hpq, decide_true, Bool.true_and, Bool.or_eq_false_iff, Bool.not_eq_false', Bool.not_eq_true,
      List.isEmpty_eq_false_iff, List.all_eq_true, List.mem_filter, List.mem_range, Bool.and_eq_true, beq_iff_eq] at h2
    obtain ⟨h3, h4⟩ := h2
    obtain ⟨s, hs⟩ := List.exists_mem_of_ne_nil _ h3
    simp only [List.mem_filter, List.mem_range, Bool.and_eq_true] at hs
    exact ⟨⟨s, hs.1, hs.2⟩, fun s a b c => h4 s ⟨a, b, c⟩⟩
  rcases Nat.le_total p q with hpq | hpq
  · exact key p q hp hq hpq
  · obtain ⟨⟨s, a, b, c⟩, h2⟩ := key q p hq hp hpq
    exact ⟨⟨s, a, c, b⟩, fun s a b c => h2 s a c b⟩

theorem shareCopy_of_not_factorizes (h : everFactorizes S = false) {a b : Op} (ha : Valid S a) (hb : Valid S b) :
    ShareCopy a b := by
  have e1 := ha.party_pos; have e2 := ha.party_le; have e3 := hb.party_pos; have e4 := hb.party_le
  obtain ⟨⟨s, hs, h1, h2⟩, h3⟩ := everFactorizes_false h (p := a.party - 1) (q := b.party - 1) (by omega) (by omega)
  have hl := h3 s hs h1 h2
  have hsa : s < a.copies.length := by rw [ha.copies_len]; exact hs
  have hsb : s < b.copies.length := by rw [hb.copies_len]; exact hs
  have ca := ha.copies_ok s hsa
  have cb := hb.copies_ok s hsb
  rw [if_pos h1, hl] at ca
  rw [if_pos h2, hl] at cb
  refine ⟨s, 1, by omega, ?_, ?_⟩
  · rw [List.getElem?_eq_getElem hsa]; congr 1; omega
  · rw [List.getElem?_eq_getElem hsb]; congr 1; omega

theorem joined_of_not_factorizes (h : everFactorizes S = false) (hv : ∀ a ∈ mon, a < S.lexorder.length)
    {a b : Nat} (ha : a ∈ mon) (hb : b ∈ mon) : Joined S mon a b := by
  refine .single ⟨ha, hb, S.lexorder[a]'(hv a ha), S.lexorder[b]'(hv b hb), ?_, ?_, .inr ?_⟩
  · exact List.getElem?_eq_getElem _
  · exact List.getElem?_eq_getElem _
  · exact shareCopy_of_not_factorizes h ((mem_lexorder S).1 (List.getElem_mem _)) ((mem_lexorder S).1 (List.getElem_mem _))

end Verif.Components

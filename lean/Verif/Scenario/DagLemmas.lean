import Verif.Scenario.Commute
/-! Helper lemmas about the loops that translate the DAG into tables. -/
namespace Verif.Scenario.DagInput
variable (D : DagInput)

theorem fold_direct (l : List Nat) (v : Nat) (T : Nat → Nat → Nat) (p q n : Nat) :
    n ≤ (l.foldl (fun T c => upd2 T (D.partyIdx c) (D.partyIdx c) v) T) p q ↔
      (∃ c ∈ l, p = D.partyIdx c ∧ q = D.partyIdx c) ∧ n ≤ v ∨
      (¬ ∃ c ∈ l, p = D.partyIdx c ∧ q = D.partyIdx c) ∧ n ≤ T p q := by
  induction l generalizing T with
  | nil => simp
  | cons c l ih =>
    rw [List.foldl_cons, ih]
    by_cases h1 : ∃ c ∈ l, p = D.partyIdx c ∧ q = D.partyIdx c
    · have h2 : ∃ c' ∈ c :: l, p = D.partyIdx c' ∧ q = D.partyIdx c' := by
        obtain ⟨c', h, h'⟩ := h1; exact ⟨c', by simp [h], h'⟩
      simp only [h1, h2, true_and, not_true, false_and, or_false]
    · simp only [h1, false_and, not_false_eq_true, true_and, false_or]
      unfold upd2
      by_cases hc : p = D.partyIdx c ∧ q = D.partyIdx c
      · have h2 : ∃ c' ∈ c :: l, p = D.partyIdx c' ∧ q = D.partyIdx c' := ⟨c, by simp, hc⟩
        rw [if_pos hc]; simp only [h2, true_and, not_true, false_and, or_false]
      · have h2 : ¬ ∃ c' ∈ c :: l, p = D.partyIdx c' ∧ q = D.partyIdx c' := by
          rintro ⟨c', h, h'⟩
          rcases List.mem_cons.1 h with rfl | h
          · exact hc h'
          · exact h1 ⟨c', h, h'⟩
        simp only [h2, hc, not_false_eq_true, true_and, false_and, false_or, if_false]

theorem fold_inner (l : List Nat) (i v : Nat) (T : Nat → Nat → Nat) (p q n : Nat) :
    n ≤ (l.foldl (fun T d2 => upd2 T i (D.partyIdx d2) (max (T i (D.partyIdx d2)) v)) T) p q ↔
      n ≤ T p q ∨ (p = i ∧ (∃ d2 ∈ l, q = D.partyIdx d2) ∧ n ≤ v) := by
  induction l generalizing T with
  | nil => simp
  | cons d l ih =>
    rw [List.foldl_cons, ih]
    unfold upd2
    by_cases hc : p = i ∧ q = D.partyIdx d
    · obtain ⟨rfl, rfl⟩ := hc
      simp only [and_self, if_true, true_and, List.mem_cons, exists_eq_or_imp]
      have hmax : ∀ a b : Nat, n ≤ max a b ↔ n ≤ a ∨ n ≤ b := by omega
      rw [hmax]
      constructor
      · rintro ((h | h) | ⟨_, h⟩)
        · exact .inl h
        · exact .inr ⟨.inl trivial, h⟩
        · exact .inr ⟨.inl trivial, h⟩
      · rintro (h | ⟨_, h⟩)
        · exact .inl (.inl h)
        · exact .inl (.inr h)
    · simp only [hc, if_false]
      constructor
      · rintro (h | ⟨h1, ⟨d2, h2, h3⟩, h4⟩)
        · exact .inl h
        · exact .inr ⟨h1, ⟨d2, by simp [h2], h3⟩, h4⟩
      · rintro (h | ⟨h1, ⟨d2, h2, h3⟩, h4⟩)
        · exact .inl h
        · rcases List.mem_cons.1 h2 with rfl | h2
          · exact absurd ⟨h1, h3⟩ hc
          · exact .inr ⟨h1, ⟨d2, h2, h3⟩, h4⟩

theorem fold_outer (l l2 : List Nat) (v : Nat) (T : Nat → Nat → Nat) (p q n : Nat) :
    n ≤ (l.foldl (fun T d => l2.foldl (fun T d2 =>
        upd2 T (D.partyIdx d) (D.partyIdx d2) (max (T (D.partyIdx d) (D.partyIdx d2)) v)) T) T) p q ↔
      n ≤ T p q ∨ ((∃ d ∈ l, p = D.partyIdx d) ∧ (∃ d2 ∈ l2, q = D.partyIdx d2) ∧ n ≤ v) := by
  induction l generalizing T with
  | nil => simp
  | cons d l ih =>
    rw [List.foldl_cons, ih, fold_inner]
    constructor
    · rintro ((h | ⟨h1, h2⟩) | ⟨⟨d', h1, h1'⟩, h2⟩)
      · exact .inl h
      · exact .inr ⟨⟨d, by simp, h1⟩, h2⟩
      · exact .inr ⟨⟨d', by simp [h1], h1'⟩, h2⟩
    · rintro (h | ⟨⟨d', h1, h1'⟩, h2⟩)
      · exact .inl (.inl h)
      · rcases List.mem_cons.1 h1 with rfl | h1
        · exact .inl (.inr ⟨h1', h2⟩)
        · exact .inr ⟨⟨d', h1, h1'⟩, h2⟩

theorem fold_latent (ls : List Nat) (conn : Nat → Nat) (T : Nat → Nat → Nat) (p q n : Nat) :
    n ≤ (ls.foldl (fun T l =>
      (D.children l).foldl (fun T d =>
        (D.children l).foldl (fun T d2 =>
          upd2 T (D.partyIdx d) (D.partyIdx d2)
            (max (T (D.partyIdx d) (D.partyIdx d2)) (1 + conn l))) T) T) T) p q ↔
      n ≤ T p q ∨ ∃ l ∈ ls, (∃ d ∈ D.children l, p = D.partyIdx d) ∧
        (∃ d2 ∈ D.children l, q = D.partyIdx d2) ∧ n ≤ 1 + conn l := by
  induction ls generalizing T with
  | nil => simp
  | cons l ls ih =>
    rw [List.foldl_cons, ih, fold_outer]
    simp only [List.mem_cons, exists_eq_or_imp]
    rw [or_assoc]

/-- Threshold characterisation of the table entries. -/
theorem le_pairTable (src p q n : Nat) (hn : 1 ≤ n) :
    n ≤ D.pairTable src p q ↔
      ((∃ c ∈ D.children src, c ∈ D.names ∧ p = D.partyIdx c ∧ q = D.partyIdx c) ∧ n ≤ 1 + D.bonus src) ∨
      ∃ l ∈ D.children src, l ∉ D.names ∧ (∃ d ∈ D.children l, p = D.partyIdx d) ∧
        (∃ d ∈ D.children l, q = D.partyIdx d) ∧
        n ≤ 1 + (if D.nonclassicalLatents.contains l && D.bonus src == 1 then 1 else 0) := by
  unfold pairTable
  simp only
  rw [fold_latent D _ (fun l => if D.nonclassicalLatents.contains l && D.bonus src == 1 then 1 else 0),
    fold_direct]
  have e1 : (∃ c ∈ (D.children src).filter (D.names.contains ·), p = D.partyIdx c ∧ q = D.partyIdx c) ↔
      ∃ c ∈ D.children src, c ∈ D.names ∧ p = D.partyIdx c ∧ q = D.partyIdx c := by
    simp only [List.mem_filter, List.contains_iff_mem, and_assoc]
  rw [e1]
  simp only [List.mem_filter, Bool.not_eq_true', List.contains_eq_mem, decide_eq_false_iff_not,
    and_assoc]
  have hz : ¬ n ≤ 0 := by omega
  simp only [hz, and_false, or_false]

theorem hyp_fold (l : List Nat) (h : Nat → Nat) (p : Nat) :
    (l.foldl (fun (h : Nat → Nat) c => fun p => if p = D.partyIdx c then 1 else h p) h) p =
      if ∃ c ∈ l, p = D.partyIdx c then 1 else h p := by
  induction l generalizing h with
  | nil => simp
  | cons c l ih =>
    rw [List.foldl_cons, ih]
    by_cases h1 : ∃ c ∈ l, p = D.partyIdx c
    · have : ∃ c' ∈ c :: l, p = D.partyIdx c' := by
        obtain ⟨c', a, b⟩ := h1; exact ⟨c', by simp [a], b⟩
      simp [h1, this]
    · by_cases h2 : p = D.partyIdx c
      · have : ∃ c' ∈ c :: l, p = D.partyIdx c' := ⟨c, by simp, h2⟩
        rw [if_neg h1, if_pos h2, if_pos this]
      · have : ¬ ∃ c' ∈ c :: l, p = D.partyIdx c' := by
          rintro ⟨c', a, b⟩
          rcases List.mem_cons.1 a with rfl | a
          · exact h2 b
          · exact h1 ⟨c', a, b⟩
        rw [if_neg h1, if_neg h2, if_neg this]

theorem hyp_fold2 (ls : List Nat) (h : Nat → Nat) (p : Nat) :
    (ls.foldl (fun h l =>
      (D.children l).foldl (fun (h : Nat → Nat) d => fun p => if p = D.partyIdx d then 1 else h p) h) h) p =
      if ∃ l ∈ ls, ∃ d ∈ D.children l, p = D.partyIdx d then 1 else h p := by
  induction ls generalizing h with
  | nil => simp
  | cons l ls ih =>
    rw [List.foldl_cons, ih, hyp_fold]
    by_cases h1 : ∃ l ∈ ls, ∃ d ∈ D.children l, p = D.partyIdx d
    · have : ∃ l' ∈ l :: ls, ∃ d ∈ D.children l', p = D.partyIdx d := by
        obtain ⟨c', a, b⟩ := h1; exact ⟨c', by simp [a], b⟩
      rw [if_pos h1, if_pos this]
    · by_cases h2 : ∃ d ∈ D.children l, p = D.partyIdx d
      · have : ∃ l' ∈ l :: ls, ∃ d ∈ D.children l', p = D.partyIdx d := ⟨l, by simp, h2⟩
        rw [if_neg h1, if_pos h2, if_pos this]
      · have : ¬ ∃ l' ∈ l :: ls, ∃ d ∈ D.children l', p = D.partyIdx d := by
          rintro ⟨c', a, b⟩
          rcases List.mem_cons.1 a with rfl | a
          · exact h2 b
          · exact h1 ⟨c', a, b⟩
        rw [if_neg h1, if_neg h2, if_neg this]

theorem hypRow_eq (src p : Nat) : D.hypRow src p =
    if (∃ c ∈ D.children src, c ∈ D.names ∧ p = D.partyIdx c) ∨
      (∃ l ∈ D.children src, l ∉ D.names ∧ ∃ d ∈ D.children l, p = D.partyIdx d) then 1 else 0 := by
  unfold hypRow
  rw [hyp_fold2, hyp_fold]
  simp only [List.mem_filter, List.contains_iff_mem, Bool.not_eq_true', List.contains_eq_mem,
    decide_eq_false_iff_not, and_assoc, decide_eq_true_eq]
  by_cases h1 : ∃ l ∈ D.children src, l ∉ D.names ∧ ∃ d ∈ D.children l, p = D.partyIdx d
  · simp only [h1, or_true, if_true]
  · simp only [h1, if_false, or_false]

end Verif.Scenario.DagInput

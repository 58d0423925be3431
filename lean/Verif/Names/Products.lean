import Verif.Names.Atoms
import Verif.Moment.Props
/-
C40, names of products of moments.
-/
namespace Verif.Names
open Verif.Scenario Verif.Text Verif.State Verif.Moment Verif.Common Verif.SymMM

/-- A name that does not end in a digit and does not contain the product sign. The names of atomic moments end in `]`, `>` or `)`. -/
structure AtomLike (n : Str) : Prop where
  noStar : '*' ∉ n
  last : ∃ c s, n = s ++ [c] ∧ ¬ Digit c

theorem intercalate_eq (sep : Char) (l : List Str) : [sep].intercalate l = joinStr sep l := by
  induction l with
  | nil => rfl
  | cons a l ih =>
    cases l with
    | nil => simp [joinStr, List.intercalate, List.intersperse]
    | cons b l =>
      rw [joinStr, ← ih]
      simp [List.intercalate, List.intersperse]

/-- One factor with its power. -/
def powerText (t : Str × Nat) : Str := if t.2 > 1 then t.1 ++ '^' :: natStr t.2 else t.1

theorem joinChars_eq (names : List Str) : joinChars names = if names.isEmpty then ['1'] else joinStr '*' ((counter names).map powerText) := by
  unfold joinChars
  rw [intercalate_eq]
  rfl

theorem powerText_inj {n m : Str} {p q : Nat} (hn : AtomLike n) (hm : AtomLike m) (hp : 0 < p) (hq : 0 < q) (h : powerText (n, p) = powerText (m, q)) :
    n = m ∧ p = q := by
  obtain ⟨c, s, rfl, hc⟩ := hn.last
  obtain ⟨c', s', rfl, hc'⟩ := hm.last
  have hpow : ¬ Digit '^' := not_digit (by simp)
  have form : ∀ (s : Str) (c : Char) (p : Nat), ¬ Digit c → ∃ u r : Str, (powerText (s ++ [c], p)).reverse = u ++ r ∧ (∀ x ∈ u, Digit x) ∧ Stops Digit r ∧
      ((p > 1 ∧ u = (natStr p).reverse ∧ r = '^' :: (s ++ [c]).reverse) ∨ (¬ p > 1 ∧ u = [] ∧ r = (s ++ [c]).reverse)) := by
    intro s c p hc
    by_cases hp : p > 1
    · refine ⟨(natStr p).reverse, '^' :: (s ++ [c]).reverse, ?_, ?_, stops_cons hpow, Or.inl ⟨hp, rfl, rfl⟩⟩
      · unfold powerText
        rw [if_pos hp]
        simp
      · intro x hx
        exact natStr_digit p x (List.mem_reverse.1 hx)
    · refine ⟨[], (s ++ [c]).reverse, ?_, by simp, ?_, Or.inr ⟨hp, rfl, rfl⟩⟩
      · unfold powerText
        rw [if_neg hp]
        rfl
      · rw [List.reverse_append]
        exact stops_cons hc
  obtain ⟨u, r, e, hu, hr, hcase⟩ := form s c p hc
  obtain ⟨u', r', e', hu', hr', hcase'⟩ := form s' c' q hc'
  have h' := congrArg List.reverse h
  rw [e, e'] at h'
  obtain ⟨e1, e2⟩ := span_inj hu hu' hr hr' h'
  have nn : ∀ k, (natStr k).reverse ≠ [] := by
    intro k e
    obtain ⟨x, t, ht, -⟩ := natStr_head k
    rw [ht] at e
    simp at e
  rcases hcase with ⟨hp1, rfl, rfl⟩ | ⟨hp1, rfl, rfl⟩ <;> rcases hcase' with ⟨hq1, rfl, rfl⟩ | ⟨hq1, rfl, rfl⟩
  · exact ⟨List.reverse_injective (List.cons.inj e2).2, natStr_inj (List.reverse_injective e1)⟩
  · exact absurd e1 (nn p)
  · exact absurd e1.symm (nn q)
  · exact ⟨List.reverse_injective e2, by omega⟩

theorem perm_of_counter_eq {α : Type} [BEq α] [LawfulBEq α] {l m : List α} (h : counter l = counter m) : l.Perm m := by
  have key : ∀ {l m : List α}, counter l = counter m → ∀ x ∈ l, l.count x = m.count x := by
    intro l m h x hx
    have h1 : (x, l.count x) ∈ counter l := List.mem_map.2 ⟨x, mem_dedupB.2 hx, rfl⟩
    rw [h] at h1
    obtain ⟨y, -, e⟩ := List.mem_map.1 h1
    have e1 := (Prod.mk.inj e).1
    have e2 := (Prod.mk.inj e).2
    rw [e1] at e2
    exact e2.symm
  rw [List.perm_iff_count]
  intro x
  by_cases hx : x ∈ l
  · exact key h x hx
  · by_cases hm : x ∈ m
    · exact (key h.symm x hm).symm
    · rw [List.count_eq_zero.2 hx, List.count_eq_zero.2 hm]

/-- **C40, names of products.** Two products of moments have the same name exactly when their factors appear with the same powers in the same order; in particular the multisets of the names of their factors agree. -/
theorem C40_product_names (u v : List Str) (hu : ∀ n ∈ u, AtomLike n) (hv : ∀ n ∈ v, AtomLike n) (h : joinChars u = joinChars v) : u.Perm v := by
  have hmem : ∀ (l : List Str), ∀ t ∈ counter l, t.1 ∈ l ∧ 0 < t.2 := by
    intro l t ht
    unfold counter at ht
    obtain ⟨a, ha, rfl⟩ := List.mem_map.1 ht
    have : a ∈ l := mem_dedupB.1 ha
    exact ⟨this, List.count_pos_iff.2 this⟩
  have hstar : ∀ (l : List Str), (∀ n ∈ l, AtomLike n) → ∀ w ∈ (counter l).map powerText, '*' ∉ w := by
    intro l hl w hw
    obtain ⟨⟨n, p⟩, ht, rfl⟩ := List.mem_map.1 hw
    have h1 := (hl n (hmem l _ ht).1).noStar
    unfold powerText
    split
    · simp only [List.mem_append, List.mem_cons, not_or]
      exact ⟨h1, by decide, not_mem_natStr _ _ (by decide)⟩
    · exact h1
  have hcne : ∀ l : List Str, l ≠ [] → (counter l).map powerText ≠ [] := by
    intro l hl e
    rcases l with _ | ⟨a, l⟩
    · exact hl rfl
    · have : a ∈ dedupB (a :: l) := mem_dedupB.2 (by simp)
      unfold counter at e
      simp only [List.map_map, List.map_eq_nil_iff] at e
      rw [e] at this
      simp at this
  have hone : ∀ l : List Str, (∀ n ∈ l, AtomLike n) → l ≠ [] → joinStr '*' ((counter l).map powerText) ≠ ['1'] := by
    intro l hl hne e
    have hs : splitAt '*' (joinStr '*' ((counter l).map powerText)) = (counter l).map powerText := splitAt_joinStr '*' _ (hcne l hne) (hstar l hl)
    rw [e] at hs
    have e1 : splitAt '*' ['1'] = [['1']] := by decide
    rw [e1] at hs
    obtain ⟨t, ht, hp⟩ : ∃ t ∈ counter l, powerText t = ['1'] := by
      have : ['1'] ∈ (counter l).map powerText := by rw [← hs]; simp
      obtain ⟨t, ht, e⟩ := List.mem_map.1 this
      exact ⟨t, ht, e⟩
    obtain ⟨c, s, hc, hd⟩ := (hl t.1 (hmem l t ht).1).last
    unfold powerText at hp
    split at hp
    · have : '^' ∈ ['1'] := by rw [← hp]; simp
      revert this; decide
    · rw [hc] at hp
      have : c = '1' := by
        have := congrArg List.getLast? hp
        simpa using this
      subst this
      exact hd (by unfold Digit; decide)
  rw [joinChars_eq, joinChars_eq] at h
  by_cases h1 : u = [] <;> by_cases h2 : v = []
  · rw [h1, h2]
  · rw [if_pos (by simp [h1]), if_neg (by simpa using h2)] at h
    exact absurd h.symm (hone v hv h2)
  · rw [if_neg (by simpa using h1), if_pos (by simp [h2])] at h
    exact absurd h (hone u hu h1)
  · rw [if_neg (by simpa using h1), if_neg (by simpa using h2)] at h
    have e := joinStr_inj (hcne u h1) (hcne v h2) (hstar u hu) (hstar v hv) h
    apply perm_of_counter_eq
    have hlen : (counter u).length = (counter v).length := by simpa using congrArg List.length e
    apply List.ext_getElem hlen
    intro n n1 n2
    have e' : ((counter u).map powerText)[n]'(by simpa using n1) = ((counter v).map powerText)[n]'(by simpa using n2) := by simp only [e]
    rw [List.getElem_map, List.getElem_map] at e'
    have m1 := hmem u _ (List.getElem_mem n1)
    have m2 := hmem v _ (List.getElem_mem n2)
    obtain ⟨e1, e2⟩ := powerText_inj (hu _ m1.1) (hv _ m2.1) m1.2 m2.2 e'
    exact Prod.ext e1 e2

/-- **C40, names of moments.** If different atoms have different names, then moments with the same name are equal, in every attribute. The hypothesis on the names is met by atomic moments (`C40_moment_names`). -/
theorem C40_compound_names (I : AtomInfo) (ms ms' : List Atom) (hlike : ∀ a ∈ ms ++ ms', AtomLike (I.name a).toList)
    (hinj : ∀ a ∈ ms ++ ms', ∀ b ∈ ms ++ ms', I.name a = I.name b → a = b) (h : (compound I ms).name = (compound I ms').name) :
    (compound I ms).eq (compound I ms') = true ∧ compound I ms = compound I ms' := by
  have hperm : ∀ m, (compound I m).factors.Perm m := factors_perm I
  have hn : ∀ m, (compound I m).name = String.ofList (joinChars (((compound I m).factors.map I.name).map String.toList)) := fun m => rfl
  rw [hn, hn] at h
  have h1 := C40_product_names _ _
    (by
      intro n hn'
      obtain ⟨m, hm, rfl⟩ := List.mem_map.1 hn'
      obtain ⟨a, ha, rfl⟩ := List.mem_map.1 hm
      exact hlike a (List.mem_append.2 (Or.inl ((hperm ms).mem_iff.1 ha))))
    (by
      intro n hn'
      obtain ⟨m, hm, rfl⟩ := List.mem_map.1 hn'
      obtain ⟨a, ha, rfl⟩ := List.mem_map.1 hm
      exact hlike a (List.mem_append.2 (Or.inr ((hperm ms').mem_iff.1 ha))))
    (by simpa using congrArg String.toList h)
  have h2 : ((compound I ms).factors.map fun a => (I.name a).toList).Perm ((compound I ms').factors.map fun a => (I.name a).toList) := by
    simpa [List.map_map, Function.comp_def] using h1
  have h3 : (ms.map fun a => (I.name a).toList).Perm (ms'.map fun a => (I.name a).toList) :=
    (((hperm ms).map _).symm.trans h2).trans ((hperm ms').map _)
  have hp : ms.Perm ms' := by
    rw [List.perm_iff_count]
    intro x
    have hcount : ∀ m : List Atom, (∀ a ∈ m, a ∈ ms ++ ms') → x ∈ ms ++ ms' → (m.map fun a => (I.name a).toList).count (I.name x).toList = m.count x := by
      intro m hm hx
      induction m with
      | nil => rfl
      | cons a m ih =>
        rw [List.map_cons, List.count_cons, List.count_cons, ih fun b hb => hm b (by simp [hb])]
        congr 1
        by_cases e : a = x
        · simp [e]
        · have : (I.name a).toList ≠ (I.name x).toList := by
            intro e'
            exact e (hinj a (hm a (by simp)) x hx (String.toList_injective e'))
          simp [e, this]
    by_cases hx : x ∈ ms ++ ms'
    · rw [← hcount ms (fun a ha => by simp [ha]) hx, ← hcount ms' (fun a ha => by simp [ha]) hx, h3.count_eq]
    · rw [List.mem_append, not_or] at hx
      rw [List.count_eq_zero.2 hx.1, List.count_eq_zero.2 hx.2]
  have := C24_equality I ms ms'
  exact ⟨this.1.2 hp, this.2 (this.1.2 hp)⟩

end Verif.Names

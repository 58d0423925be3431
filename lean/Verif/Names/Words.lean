import Verif.Names.OpProps
/-
C40, products of operators: joined names, names in brackets and reading them back.
-/
namespace Verif.Names
open Verif.Scenario Verif.Text Verif.State

variable {S : Scenario} {N : Naming}

theorem splitAt_joinStr (sep : Char) (ws : List Str) (hne : ws ≠ []) (h : ∀ w ∈ ws, sep ∉ w) : splitAt sep (joinStr sep ws) = ws := by
  induction ws with
  | nil => exact absurd rfl hne
  | cons w ws ih =>
    cases ws with
    | nil => exact splitAt_noSep sep w (h w (by simp))
    | cons v ws =>
      rw [joinStr, splitAt_append sep w _ (h w (by simp)), ih (by simp) fun x hx => h x (by simp only [List.mem_cons] at hx ⊢; exact Or.inr hx)]

theorem joinStr_inj {sep : Char} {ws vs : List Str} (hw : ws ≠ []) (hv : vs ≠ []) (h1 : ∀ w ∈ ws, sep ∉ w) (h2 : ∀ w ∈ vs, sep ∉ w)
    (h : joinStr sep ws = joinStr sep vs) : ws = vs := by
  rw [← splitAt_joinStr sep ws hw h1, h, splitAt_joinStr sep vs hv h2]

theorem mem_joinNat {sep c : Char} {l : List Nat} (h : c ∈ joinNat sep l) : Digit c ∨ c = sep := by
  induction l with
  | nil => simp [joinNat] at h
  | cons a l ih =>
    cases l with
    | nil => exact Or.inl (natStr_digit a c h)
    | cons b l =>
      rw [joinNat, List.mem_append, List.mem_cons] at h
      rcases h with h | h | h
      · exact Or.inl (natStr_digit a c h)
      · exact Or.inr h
      · exact ih h

theorem mem_joinStr {sep c : Char} {l : List Str} (h : c ∈ joinStr sep l) : c = sep ∨ ∃ w ∈ l, c ∈ w := by
  induction l with
  | nil => simp [joinStr] at h
  | cons a l ih =>
    cases l with
    | nil => exact Or.inr ⟨a, by simp, h⟩
    | cons b l =>
      rw [joinStr, List.mem_append, List.mem_cons] at h
      rcases h with h | h | h
      · exact Or.inr ⟨a, by simp, h⟩
      · exact Or.inl h
      · rcases ih h with e | ⟨w, hw, hc⟩
        · exact Or.inl e
        · exact Or.inr ⟨w, by simp only [List.mem_cons] at hw ⊢; exact Or.inr hw, hc⟩

/-- The characters a display name can contain. -/
theorem mem_opName (hf : Fits S N) {a : Op} (ha : Valid S a) (hpar : ∀ q ∈ N.parents (a.party - 1), q < S.nParties) {i : Interp} {t : List Nat}
    (hi : InterpOf S N a i t) {c : Bool} {x : Char} (h : x ∈ opName c i) :
    (∃ n ∈ N.names, x ∈ n) ∨ Digit x ∨ x ∈ ['_', '^', '{', '}', ',', '=', '|', 'd', 'o', '(', ')'] := by
  have hname : ∀ q ∈ N.parents (a.party - 1), N.names.getD q [] ∈ N.names := by
    intro q hq
    have : q < N.names.length := by rw [hf.len]; exact hpar q hq
    rw [List.getD_eq_getElem _ _ this]
    exact List.getElem_mem this
  rw [opName_eq, List.mem_append] at h
  rcases h with h | h
  · rw [hi.party] at h
    exact Or.inl ⟨_, name_mem hf ha, h⟩
  · unfold tailName at h
    simp only [List.mem_append, List.mem_cons] at h
    rcases h with h | h | h | h | h
    · split at h
      · simp at h
      · simp only [List.mem_cons] at h
        rcases h with rfl | h
        · exact Or.inr (Or.inr (by simp))
        · exact Or.inr (Or.inl (natStr_digit _ _ h))
    · unfold copyPart at h
      split at h
      · simp only [List.mem_append, List.mem_cons] at h
        rcases h with h | rfl | h
        · split at h
          · simp at h
          · simp only [List.mem_append, List.mem_cons, List.not_mem_nil, or_false] at h
            rcases h with h | h
            · rcases h with rfl | rfl | h
              · exact Or.inr (Or.inr (by simp))
              · exact Or.inr (Or.inr (by simp))
              · rcases mem_joinNat h with e | rfl
                · exact Or.inr (Or.inl e)
                · exact Or.inr (Or.inr (by simp))
            · rw [h]
              exact Or.inr (Or.inr (by simp))
        · exact Or.inr (Or.inr (by simp))
        · rcases mem_joinNat h with e | rfl
          · exact Or.inr (Or.inl e)
          · exact Or.inr (Or.inr (by simp))
      · simp at h
    · rw [h]; exact Or.inr (Or.inr (by simp))
    · exact Or.inr (Or.inl (natStr_digit _ _ h))
    · unfold doPart at h
      split at h
      · simp at h
      · simp only [List.mem_append, List.mem_cons, List.not_mem_nil, or_false] at h
        rcases h with (h | h) | h
        · exact Or.inr (Or.inr (by rcases h with rfl | rfl | rfl | rfl <;> simp))
        · rcases mem_joinStr h with rfl | ⟨w, hw, hx⟩
          · exact Or.inr (Or.inr (by simp))
          · obtain ⟨⟨k, v⟩, hkv, rfl⟩ := List.mem_map.1 hw
            rw [hi.doValues] at hkv
            obtain ⟨q, hq, e⟩ := List.mem_map.1 (List.of_mem_zip hkv).1
            simp only [doText, List.mem_append, List.mem_cons] at hx
            rcases hx with hx | rfl | hx
            · exact Or.inl ⟨k, e ▸ hname q hq, hx⟩
            · exact Or.inr (Or.inr (by simp))
            · exact Or.inr (Or.inl (natStr_digit _ _ hx))
        · rw [h]; exact Or.inr (Or.inr (by simp))

/-! ### `to_name` -/

/-- **C40, `to_name`.** Two products of operators with the same text are the same product, provided party names avoid `_` and `*`. -/
theorem C40_to_name_injective (hf : Fits S N) (hav : Avoid N ['_', '*']) (u v : List Op) (hu : ∀ a ∈ u, Valid S a) (hv : ∀ a ∈ v, Valid S a)
    (h : toName N.names u = toName N.names v) : u = v := by
  have hus : ¬ Digit '_' := not_digit (by simp)
  let piece := fun op : Op => N.names.getD (op.party - 1) [] ++ '_' :: joinNat '_' (op.copies ++ [op.setting, op.outcome])
  have hpiece : ∀ a, '_' ∈ piece a := by intro a; simp [piece]
  have hstar : ∀ a, Valid S a → '*' ∉ piece a := by
    intro a ha hm
    simp only [piece, List.mem_append, List.mem_cons] at hm
    rcases hm with hm | hm | hm
    · exact hav _ (name_mem hf ha) '*' (by simp) hm
    · revert hm; decide
    · rcases mem_joinNat hm with e | e
      · exact not_digit (by simp) e
      · revert e; decide
  have hinj : ∀ a b, Valid S a → Valid S b → piece a = piece b → a = b := by
    intro a b ha hb e
    have nm : ∀ {a}, Valid S a → ∀ x ∈ N.names.getD (a.party - 1) [], ¬ x = '_' := by
      intro a ha x hx e
      exact hav _ (name_mem hf ha) '_' (by simp) (e ▸ hx)
    have st : ∀ w : Str, Stops (fun x => ¬ x = '_') ('_' :: w) := fun w => stops_cons (by simp)
    obtain ⟨e1, e2⟩ := span_inj (nm ha) (nm hb) (st _) (st _) e
    have e3 : joinNat '_' (a.copies ++ [a.setting, a.outcome]) ++ [] = joinNat '_' (b.copies ++ [b.setting, b.outcome]) ++ [] := by
      rw [(List.cons.inj e2).2]
    obtain ⟨e4, -⟩ := joinNat_span_len hus (by simp [ha.copies_len, hb.copies_len]) stops_nil stops_nil e3
    obtain ⟨e5, e6⟩ := List.append_inj e4 (by rw [ha.copies_len, hb.copies_len])
    simp only [List.cons.injEq, and_true] at e6
    exact op_ext (party_eq hf ha hb e1) e5 e6.1 e6.2
  have hone : ∀ w : List Op, w ≠ [] → joinStr '*' (w.map piece) ≠ ['1'] := by
    intro w hw e
    rcases w with _ | ⟨a, w⟩
    · exact hw rfl
    have : '_' ∈ joinStr '*' ((a :: w).map piece) := by
      cases w with
      | nil => exact hpiece a
      | cons b w =>
        rw [List.map_cons, List.map_cons, joinStr, List.mem_append]
        exact Or.inl (hpiece a)
    rw [e] at this
    revert this; decide
  have hnm : ∀ w, w ≠ [] → toName N.names w = joinStr '*' (w.map piece) := by
    intro w hw
    unfold toName
    rw [if_neg (by simpa using hw)]
  by_cases h1 : u = [] <;> by_cases h2 : v = []
  · rw [h1, h2]
  · rw [h1, hnm v h2] at h
    exact absurd h.symm (hone v h2)
  · rw [h2, hnm u h1] at h
    exact absurd h (hone u h1)
  · rw [hnm u h1, hnm v h2] at h
    have e := joinStr_inj (by simpa using h1) (by simpa using h2)
      (by intro w hw; obtain ⟨a, ha, rfl⟩ := List.mem_map.1 hw; exact hstar a (hu a ha))
      (by intro w hw; obtain ⟨a, ha, rfl⟩ := List.mem_map.1 hw; exact hstar a (hv a ha)) h
    clear h hnm hone h1 h2
    induction u generalizing v with
    | nil =>
      cases v with
      | nil => rfl
      | cons b v => simp at e
    | cons a u ih =>
      cases v with
      | nil => simp at e
      | cons b v =>
        simp only [List.map_cons, List.cons.injEq] at e
        rw [hinj a b (hu a (by simp)) (hv b (by simp)) e.1,
          ih v (fun x hx => hu x (by simp [hx])) (fun x hx => hv x (by simp [hx])) e.2]

/-! ### Reading names in brackets -/

theorem removeAllAux_id {pat : Str} (f : Nat) (s : Str) (h : ¬ pat <:+: s) : removeAllAux pat f s = s := by
  induction f generalizing s with
  | zero => rfl
  | succ f ih =>
    cases s with
    | nil => rfl
    | cons c s =>
      have h1 : ¬ pat.isPrefixOf (c :: s) = true := by
        intro e
        exact h (List.isPrefixOf_iff_prefix.1 e).isInfix
      rw [removeAllAux, if_neg h1, ih s fun e => h (e.trans (List.suffix_cons c s).isInfix)]

theorem removeAll_id {pat : Str} (s : Str) (h : ¬ pat <:+: s) : removeAll pat s = s := removeAllAux_id _ s h

theorem removeAll_prefix {pat : Str} (hp : pat ≠ []) (s : Str) (h : ¬ pat <:+: s) : removeAll pat (pat ++ s) = s := by
  unfold removeAll
  rcases pat with _ | ⟨c, pat⟩
  · exact absurd rfl hp
  rw [List.cons_append, List.length_cons, removeAllAux, if_pos, ← List.cons_append]
  · rw [List.drop_left]
    exact removeAllAux_id _ s h
  · rw [← List.cons_append, List.isPrefixOf_iff_prefix]
    exact List.prefix_append _ _

/-- The loop over the set of substrings removes the opening text only. -/
theorem kill_fold {order : List Str} {pre body : Str} (hpre : pre ≠ []) (hmem : pre ∈ order) (hbody : ∀ p ∈ order, ¬ p <:+: body)
    (hother : ∀ p ∈ order, p ≠ pre → ¬ p <:+: (pre ++ body)) : order.foldl (fun t pat => removeAll pat t) (pre ++ body) = body := by
  have hb : ∀ order : List Str, (∀ p ∈ order, ¬ p <:+: body) → order.foldl (fun t pat => removeAll pat t) body = body := by
    intro order
    induction order with
    | nil => intro _; rfl
    | cons p order ih =>
      intro h
      rw [List.foldl_cons, removeAll_id body (h p (by simp))]
      exact ih fun q hq => h q (by simp [hq])
  induction order with
  | nil => simp at hmem
  | cons p order ih =>
    rw [List.foldl_cons]
    by_cases e : p = pre
    · subst e
      rw [removeAll_prefix hpre body (hbody p (by simp))]
      exact hb order fun q hq => hbody q (by simp [hq])
    · rw [removeAll_id _ (hother p (by simp) e)]
      refine ih ?_ (fun q hq => hbody q (by simp [hq])) (fun q hq => hother q (by simp [hq]))
      rcases List.mem_cons.1 hmem with h | h
      · exact absurd h.symm e
      · exact h

theorem ampAux_id (f : Nat) (s : Str) (h : '&' ∉ s) : ampAux f s = s := by
  induction f generalizing s with
  | zero => rfl
  | succ f ih =>
    cases s with
    | nil => rfl
    | cons c s =>
      have h1 : ¬ [' ', '&', ' '].isPrefixOf (c :: s) = true := by
        intro e
        have := (List.isPrefixOf_iff_prefix.1 e).isInfix.subset (show '&' ∈ [' ', '&', ' '] by simp)
        exact h this
      have e : " & ".toList = [' ', '&', ' '] := by decide
      rw [ampAux, e, if_neg h1, ih s fun e => h (by simp [e])]

/-- Every `(` comes after an `o`. -/
abbrev Paren (s : Str) : Prop := s.IsChain fun p c => c = '(' → p = 'o'

theorem paren_of_not_mem {s : Str} (h : '(' ∉ s) : Paren s := by
  induction s with
  | nil => exact List.IsChain.nil
  | cons a s ih =>
    simp only [List.mem_cons, not_or] at h
    cases s with
    | nil => exact List.IsChain.singleton a
    | cons b s =>
      refine List.IsChain.cons_cons ?_ (ih h.2)
      rintro rfl
      exact absurd (by simp) h.2

theorem paren_append {s t : Str} (hs : Paren s) (ht : Paren t) (h : t.head? ≠ some '(') : Paren (s ++ t) := by
  unfold Paren
  rw [List.isChain_append]
  refine ⟨hs, ht, ?_⟩
  intro x _ y hy e
  subst e
  exact absurd hy h

theorem paren_infix {s : Str} {p : Char} (h : Paren s) (hp : [p, '('] <:+: s) : p = 'o' := by
  obtain ⟨u, v, e⟩ := hp
  unfold Paren at h
  rw [← e, List.append_assoc, List.isChain_append] at h
  have h2 := h.2.1
  simp only [List.cons_append, List.nil_append] at h2
  cases h2 with
  | cons_cons h3 _ => exact h3 rfl

theorem paren_opName (hf : Fits S N) (hav : Avoid N ['(']) {a : Op} (ha : Valid S a) (hpar : ∀ q ∈ N.parents (a.party - 1), q < S.nParties) {i : Interp} {t : List Nat}
    (hi : InterpOf S N a i t) (c : Bool) : Paren (opName c i) := by
  have hname : ∀ q ∈ N.parents (a.party - 1), N.names.getD q [] ∈ N.names := by
    intro q hq
    have : q < N.names.length := by rw [hf.len]; exact hpar q hq
    rw [List.getD_eq_getElem _ _ this]
    exact List.getElem_mem this
  have hd : ¬ Digit '(' := by unfold Digit; decide
  have hn : ∀ n, '(' ∉ natStr n := fun n h => hd (natStr_digit n _ h)
  have hj : ∀ {sep : Char} {l : List Nat}, sep ≠ '(' → '(' ∉ joinNat sep l := by
    intro sep l hs h
    rcases mem_joinNat h with e | e
    · exact hd e
    · exact hs e.symm
  -- everything before the do-values
  have hfront : '(' ∉ i.party ++ ((if i.privateTrivial then [] else '_' :: natStr i.priv) ++ (copyPart c i ++ '=' :: natStr i.outcome)) := by
    simp only [List.mem_append, List.mem_cons, not_or]
    refine ⟨?_, ?_, ?_, by decide, hn _⟩
    · rw [hi.party]; exact hav _ (name_mem hf ha) _ (by simp)
    · split
      · simp
      · simp only [List.mem_cons, not_or]
        exact ⟨by decide, hn _⟩
    · unfold copyPart
      split
      · simp only [List.mem_append, List.mem_cons, not_or]
        refine ⟨?_, by decide, hj (by decide)⟩
        split
        · simp
        · simp only [List.mem_append, List.mem_cons, List.not_mem_nil, not_or, or_false]
          exact ⟨⟨by decide, by decide, hj (by decide)⟩, by decide⟩
      · simp
  have e : opName c i = (i.party ++ ((if i.privateTrivial then [] else '_' :: natStr i.priv) ++ (copyPart c i ++ '=' :: natStr i.outcome))) ++ doPart i := by
    rw [opName_eq]
    unfold tailName
    simp only [List.append_assoc, List.cons_append]
  rw [e]
  refine paren_append (paren_of_not_mem hfront) ?_ ?_
  · unfold doPart
    split
    · exact List.IsChain.nil
    · rw [List.append_assoc]
      have hin : '(' ∉ joinStr ',' (i.doValues.map doText) ++ [')'] := by
        simp only [List.mem_append, List.mem_cons, List.not_mem_nil, or_false, not_or]
        refine ⟨?_, by decide⟩
        intro h
        rcases mem_joinStr h with e | ⟨w, hw, hx⟩
        · revert e; decide
        · obtain ⟨⟨k, v⟩, hkv, rfl⟩ := List.mem_map.1 hw
          rw [hi.doValues] at hkv
          obtain ⟨q, hq, e⟩ := List.mem_map.1 (List.of_mem_zip hkv).1
          simp only [doText, List.mem_append, List.mem_cons] at hx
          rcases hx with hx | hx | hx
          · exact hav _ (hname q hq) '(' (by simp) (e ▸ hx)
          · revert hx; decide
          · exact hn _ hx
      refine paren_append ?_ (paren_of_not_mem hin) ?_
      · unfold Paren
        decide
      · intro h
        exact hin (List.mem_of_mem_head? h)
  · unfold doPart
    split
    · simp
    · simp

theorem paren_joinStr {l : List Str} (h : ∀ w ∈ l, Paren w ∧ w.head? ≠ some '(') : Paren (joinStr ' ' l) := by
  induction l with
  | nil => exact List.IsChain.nil
  | cons a l ih =>
    cases l with
    | nil => exact (h a (by simp)).1
    | cons b l =>
      rw [joinStr]
      have ih' := ih fun w hw => h w (by simp only [List.mem_cons] at hw ⊢; exact Or.inr hw)
      have hb : (joinStr ' ' (b :: l)).head? ≠ some '(' := by
        cases l with
        | nil => exact (h b (by simp)).2
        | cons c l =>
          rw [joinStr, List.head?_append]
          intro e
          rcases hh : b.head? with _ | x
          · rw [hh] at e
            simp at e
          · rw [hh] at e
            exact (h b (by simp)).2 (hh.trans e)
      refine paren_append (h a (by simp)).1 ?_ (by simp)
      have : ' ' :: joinStr ' ' (b :: l) = [' '] ++ joinStr ' ' (b :: l) := rfl
      rw [this]
      exact paren_append (List.IsChain.singleton _) ih' hb

end Verif.Names

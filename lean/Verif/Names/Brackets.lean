import Verif.Names.Words
/-
C40, names of moments: names in angle brackets are read back, names in the form `P[…]` are not.
-/
namespace Verif.Names
open Verif.Scenario Verif.Text Verif.State

variable {S : Scenario} {N : Naming}

theorem mapM_forall2 {α β : Type} {f : α → Option β} {l : List α} {r : List β} (h : List.Forall₂ (fun a b => f a = some b) l r) : l.mapM f = some r := by
  induction h with
  | nil => rfl
  | cons h _ ih => rw [List.mapM_cons, h, ih]; rfl

/-- A name in angle brackets whose pieces are display names is split into these pieces. -/
theorem interpretAtomic_bracket (hf : Fits S N) (hav : Avoid N ['_', '^', '=', '∅', ' ', '<', '[', '(', '&'])
    (hpar : ∀ p < S.nParties, ∀ q ∈ N.parents p, q < S.nParties) (order : List Str) (ho : ∀ p ∈ order, p ∈ toKill) (hlt : "<".toList ∈ order)
    (d : Dict Str Nat) (ns : List Str) (hne : ns ≠ []) (hns : ∀ n ∈ ns, ∃ a, Valid S a ∧ displayName S N a = some n) :
    interpretAtomic d order ('<' :: joinStr ' ' ns ++ ['>']) = ns.mapM fun w => Dict.get d w := by
  have hchar : ∀ x ∈ [' ', '<', '[', '&'], ∀ n ∈ ns, x ∉ n := by
    intro x hx n hn hm
    obtain ⟨a, ha, hd⟩ := hns n hn
    obtain ⟨i, t, hi, hi'⟩ := interpret_some hf ha
    simp only [displayName, hi, Option.map_some, Option.some.injEq] at hd
    subst hd
    have hx' : x = ' ' ∨ x = '<' ∨ x = '[' ∨ x = '&' := by simpa using hx
    rcases mem_opName hf ha (hpar _ (by have := ha.party_le; have := ha.party_pos; omega)) hi' hm with ⟨n, hn, h⟩ | h | h
    · refine hav n hn x ?_ h
      simp only [List.mem_cons, List.not_mem_nil, or_false]
      rcases hx' with rfl | rfl | rfl | rfl <;> simp
    · rcases hx' with rfl | rfl | rfl | rfl <;> revert h <;> unfold Digit <;> decide
    · rcases hx' with rfl | rfl | rfl | rfl <;> revert h <;> decide
  have hparen : ∀ n ∈ ns, Paren n ∧ n.head? ≠ some '(' := by
    intro n hn
    obtain ⟨a, ha, hd⟩ := hns n hn
    obtain ⟨i, t, hi, hi'⟩ := interpret_some hf ha
    simp only [displayName, hi, Option.map_some, Option.some.injEq] at hd
    subst hd
    refine ⟨paren_opName hf (avoid_sub hav (by simp)) ha (hpar _ (by have := ha.party_le; have := ha.party_pos; omega)) hi' _, ?_⟩
    intro e
    rw [opName_eq] at e
    rcases hp : i.party with _ | ⟨c, s⟩
    · rw [hp, List.nil_append] at e
      have := tailName_stops (anyInflation S) i '(' e
      exact this (by unfold Sep; decide)
    · rw [hp] at e
      simp only [List.cons_append, List.head?_cons, Option.some.injEq] at e
      refine hav _ (name_mem hf ha) '(' (by simp) ?_
      rw [← hi'.party, hp, e]
      simp
  have hbody : ∀ x ∈ ['<', '[', '&'], x ∉ joinStr ' ' ns := by
    intro x hx h
    rcases mem_joinStr h with e | ⟨w, hw, hc⟩
    · subst e; revert hx; decide
    · exact hchar x (by simp only [List.mem_cons, List.not_mem_nil, or_false] at hx ⊢; tauto) w hw hc
  have hP := paren_joinStr hparen
  have hkill : order.foldl (fun t pat => removeAll pat t) ('<' :: joinStr ' ' ns) = joinStr ' ' ns := by
    have hb : ∀ p ∈ order, ¬ p <:+: joinStr ' ' ns := by
      intro p hp h
      have := ho p hp
      simp only [toKill, List.mem_cons, List.not_mem_nil, or_false] at this
      rcases this with rfl | rfl | rfl | rfl | rfl
      · exact hbody '[' (by simp) (h.subset (by decide))
      · exact absurd (paren_infix hP (p := 'P') h) (by decide)
      · exact hbody '[' (by simp) (h.subset (by decide))
      · exact absurd (paren_infix hP (p := 'p') h) (by decide)
      · exact hbody '<' (by simp) (h.subset (by decide))
    have e : '<' :: joinStr ' ' ns = "<".toList ++ joinStr ' ' ns := rfl
    rw [e]
    refine kill_fold (by decide) hlt hb ?_
    intro p hp hne' h
    have h2 : Paren ("<".toList ++ joinStr ' ' ns) := by
      refine paren_append (List.IsChain.singleton _) hP ?_
      intro e'
      rcases hns' : ns with _ | ⟨n, ns'⟩
      · exact hne hns'
      · have hmem := List.mem_of_mem_head? e'
        rw [hns'] at e'
        cases ns' with
        | nil => exact (hparen n (by simp [hns'])).2 e'
        | cons m ns' =>
          rw [joinStr, List.head?_append] at e'
          rcases hh : n.head? with _ | x
          · rw [hh] at e'; simp at e'
          · rw [hh] at e'
            exact (hparen n (by simp [hns'])).2 (hh.trans e')
    have := ho p hp
    simp only [toKill, List.mem_cons, List.not_mem_nil, or_false] at this
    have hsq : '[' ∉ "<".toList ++ joinStr ' ' ns := by
      rw [List.mem_append, not_or]
      exact ⟨by decide, hbody '[' (by simp)⟩
    rcases this with rfl | rfl | rfl | rfl | rfl
    · exact hsq (h.subset (by decide))
    · exact absurd (paren_infix h2 (p := 'P') h) (by decide)
    · exact hsq (h.subset (by decide))
    · exact absurd (paren_infix h2 (p := 'p') h) (by decide)
    · exact hne' rfl
  unfold interpretAtomic
  have hl : ('<' :: joinStr ' ' ns ++ ['>']).getLast? = some '>' := List.getLast?_concat
  have hh : ('<' :: joinStr ' ' ns ++ ['>']).head? = some '<' := by simp
  have hd : ('<' :: joinStr ' ' ns ++ ['>']).dropLast = '<' :: joinStr ' ' ns := List.dropLast_concat
  rw [hl, hh, hd]
  simp only [true_and, true_or, if_true]
  rw [hkill]
  unfold replaceAmp
  rw [ampAux_id _ _ (hbody '&' (by simp)), splitAt_joinStr ' ' ns hne (hchar ' ' (by simp))]

/-- **C40, moments in brackets.** The name `<n₁ … nₖ>` of a product of operators, where `nᵢ` is the display name of the operator of rank `wᵢ`, is read back as the same product, by linear programs and by semidefinite programs (where ranks are shifted by one), whatever the order in which Python iterates over the set of substrings to remove. -/
theorem C40_bracket_name_reads_back (hf : Fits S N) (hav : Avoid N ['_', '^', '=', '∅', ' ', '<', '[', '(', '&'])
    (hpar : ∀ p < S.nParties, ∀ q ∈ N.parents p, q < S.nParties) (order : List Str) (ho : ∀ p, p ∈ order ↔ p ∈ toKill)
    (w : List Nat) (ns : List Str) (hne : w ≠ [])
    (hns : List.Forall₂ (fun k n => ∃ a, S.lexorder[k]? = some a ∧ displayName S N a = some n) w ns) :
    (∃ d, opFromName S N = some d ∧ interpretAtomic d order ('<' :: joinStr ' ' ns ++ ['>']) = some w) ∧
    (∃ d, opFromNameSdp S N = some d ∧ interpretAtomic d order ('<' :: joinStr ' ' ns ++ ['>']) = some (w.map (· + 1))) := by
  have hne' : ns ≠ [] := by
    rintro rfl
    cases hns
    exact hne rfl
  have hv : ∀ n ∈ ns, ∃ a, Valid S a ∧ displayName S N a = some n := by
    intro n hn
    obtain ⟨k, -, a, hk, hd⟩ : ∃ k ∈ w, ∃ a, S.lexorder[k]? = some a ∧ displayName S N a = some n := by
      clear hne hne'
      induction hns with
      | nil => simp at hn
      | cons h _ ih =>
        rcases List.mem_cons.1 hn with rfl | hn
        · exact ⟨_, by simp, h⟩
        · obtain ⟨k, hk, h'⟩ := ih hn
          exact ⟨k, by simp [hk], h'⟩
    exact ⟨a, (mem_lexorder S).1 (List.mem_of_getElem? hk), hd⟩
  have hlt : "<".toList ∈ order := (ho _).2 (by decide)
  have hav4 : Avoid N ['_', '^', '=', '∅'] := avoid_sub hav (by simp)
  obtain ⟨rows, hr, -⟩ := nameRows_some hf
  have hd : opFromName S N = some (fillNames [] 0 rows) := by unfold opFromName; rw [hr]; rfl
  have hd' : opFromNameSdp S N = some (fillNames [(['0'], 0)] 1 rows) := by unfold opFromNameSdp; rw [hr]; rfl
  refine ⟨⟨_, hd, ?_⟩, ⟨_, hd', ?_⟩⟩
  · rw [interpretAtomic_bracket hf hav hpar order (fun p hp => (ho p).1 hp) hlt _ ns hne' hv]
    apply mapM_forall2
    clear hne hne' hv
    induction hns with
    | nil => exact List.Forall₂.nil
    | cons h _ ih =>
      refine List.Forall₂.cons ?_ ih
      obtain ⟨a, hk, hn⟩ := h
      obtain ⟨d, h1, h2⟩ := (C40_names_read_back hf hav4 _ a hk _ (Or.inl hn)).1
      rw [hd] at h1
      rw [Option.some.inj h1]
      exact h2
  · rw [interpretAtomic_bracket hf hav hpar order (fun p hp => (ho p).1 hp) hlt _ ns hne' hv]
    apply mapM_forall2
    clear hne hne' hv
    induction hns with
    | nil => exact List.Forall₂.nil
    | cons h _ ih =>
      refine List.Forall₂.cons ?_ ih
      obtain ⟨a, hk, hn⟩ := h
      obtain ⟨d, h1, h2⟩ := (C40_names_read_back hf hav4 _ a hk _ (Or.inl hn)).2
      rw [hd'] at h1
      rw [Option.some.inj h1]
      exact h2

/-- **C40, the printed form of probabilities is rejected.** A name in the form `P[n₁ … nₖ]` with at least two operators (the form in which moments of commuting operators are displayed) is not accepted, whatever the operators are: `factor_string[0:1]` is one character long. Such names are only found if the moment has been created before. -/
theorem C40_probability_form_rejected (d : Dict Str Nat) (order : List Str) (n m : Str) (ns : List Str) :
    interpretAtomic d order ('P' :: '[' :: joinStr ' ' (n :: m :: ns) ++ [']']) = none := by
  have hsp : ' ' ∈ 'P' :: '[' :: joinStr ' ' (n :: m :: ns) ++ [']'] := by
    rw [joinStr]
    simp
  unfold interpretAtomic
  have hl : ('P' :: '[' :: joinStr ' ' (n :: m :: ns) ++ [']']).getLast? = some ']' := List.getLast?_concat
  have hh : ('P' :: '[' :: joinStr ' ' (n :: m :: ns) ++ [']']).head? = some 'P' := by simp
  have ht : ('P' :: '[' :: joinStr ' ' (n :: m :: ns) ++ [']']).take 1 = ['P'] := by simp
  rw [hl, hh, ht]
  simp only
  rw [if_neg]
  rintro (⟨h, -⟩ | ⟨h, -⟩ | ⟨-, h⟩)
  · revert h; decide
  · revert h; decide
  · exact h hsp

/-- **C40, conditional probabilities are rejected.** The same holds for a single operator with do-values, whose name contains `|`. -/
theorem C40_do_form_rejected (d : Dict Str Nat) (order : List Str) (n : Str) (hn : '|' ∈ n) :
    interpretAtomic d order ('P' :: '[' :: n ++ [']']) = none := by
  have hsp : '|' ∈ 'P' :: '[' :: n ++ [']'] := by simp [hn]
  unfold interpretAtomic
  have hl : ('P' :: '[' :: n ++ [']']).getLast? = some ']' := List.getLast?_concat
  have hh : ('P' :: '[' :: n ++ [']']).head? = some 'P' := by simp
  have ht : ('P' :: '[' :: n ++ [']']).take 1 = ['P'] := by simp
  rw [hl, hh, ht]
  simp only
  rw [if_neg]
  rintro (⟨h, -⟩ | ⟨h, -⟩ | ⟨h, -⟩)
  · revert h; decide
  · revert h; decide
  · exact h hsp

end Verif.Names

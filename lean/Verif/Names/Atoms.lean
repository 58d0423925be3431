import Verif.Names.Brackets
/-
C40, names of atomic moments: different moments have different names.
-/
namespace Verif.Names
open Verif.Scenario Verif.Text Verif.State

variable {S : Scenario} {N : Naming}

/-- The name of an atomic moment that is neither one nor zero, from its operators; `doConditional`, `allCommuting`: the attributes `is_do_conditional`, `is_all_commuting` (lp/monomial_classes.py 83-84, 146-166). -/
def momentName (S : Scenario) (N : Naming) (doConditional allCommuting : Bool) (w : List Op) : Option Str :=
  (w.mapM (interpret S N)).map (atomName (anyInflation S) doConditional allCommuting)

theorem mem_opName' {i : Interp} (hp : i.party ∈ N.names) (hk : ∀ kv ∈ i.doValues, kv.1 ∈ N.names) {c : Bool} {x : Char} (h : x ∈ opName c i) :
    (∃ n ∈ N.names, x ∈ n) ∨ Digit x ∨ x ∈ ['_', '^', '{', '}', ',', '=', '|', 'd', 'o', '(', ')'] := by
  rw [opName_eq, List.mem_append] at h
  rcases h with h | h
  · exact Or.inl ⟨_, hp, h⟩
  · unfold tailName at h
    simp only [List.mem_append, List.mem_cons] at h
    rcases h with h | h | h | h | h
    · split at h
      · simp at h
      · simp only [List.mem_cons] at h
        rcases h with rfl | h
        · exact Or.inr (Or.inr (by simp))
        · exact Or.inr (Or.inl (natStr_digit _ _ h))
    · unfold copyPart at h
      split at h
      · simp only [List.mem_append, List.mem_cons] at h
        rcases h with h | rfl | h
        · split at h
          · simp at h
          · simp only [List.mem_append, List.mem_cons, List.not_mem_nil, or_false] at h
            rcases h with h | h
            · rcases h with rfl | rfl | h
              · exact Or.inr (Or.inr (by simp))
              · exact Or.inr (Or.inr (by simp))
              · rcases mem_joinNat h with e | rfl
                · exact Or.inr (Or.inl e)
                · exact Or.inr (Or.inr (by simp))
            · rw [h]
              exact Or.inr (Or.inr (by simp))
        · exact Or.inr (Or.inr (by simp))
        · rcases mem_joinNat h with e | rfl
          · exact Or.inr (Or.inl e)
          · exact Or.inr (Or.inr (by simp))
      · simp at h
    · rw [h]; exact Or.inr (Or.inr (by simp))
    · exact Or.inr (Or.inl (natStr_digit _ _ h))
    · unfold doPart at h
      split at h
      · simp at h
      · simp only [List.mem_append, List.mem_cons, List.not_mem_nil, or_false] at h
        rcases h with (h | h) | h
        · exact Or.inr (Or.inr (by rcases h with rfl | rfl | rfl | rfl <;> simp))
        · rcases mem_joinStr h with rfl | ⟨w, hw, hx⟩
          · exact Or.inr (Or.inr (by simp))
          · obtain ⟨⟨k, v⟩, hkv, rfl⟩ := List.mem_map.1 hw
            simp only [doText, List.mem_append, List.mem_cons] at hx
            rcases hx with hx | rfl | hx
            · exact Or.inl ⟨k, hk _ hkv, hx⟩
            · exact Or.inr (Or.inr (by simp))
            · exact Or.inr (Or.inl (natStr_digit _ _ hx))
        · rw [h]; exact Or.inr (Or.inr (by simp))

/-- A list of do-values can be read off its text. -/
theorem doList_inj {l l' : List (Str × Nat)} (h1 : ∀ kv ∈ l, '=' ∉ kv.1) (h2 : ∀ kv ∈ l', '=' ∉ kv.1)
    (h : joinStr ',' (l.map doText) = joinStr ',' (l'.map doText)) : l = l' := by
  have hne : ∀ (kv : Str × Nat) (l : List (Str × Nat)), joinStr ',' ((kv :: l).map doText) ≠ [] := by
    intro kv l e
    cases l with
    | nil => simp [joinStr, doText] at e
    | cons a l => simp [joinStr] at e
  have hform : ∀ (k : Str) (v : Nat) (l : List (Str × Nat)), ∃ r : Str, joinStr ',' (((k, v) :: l).map doText) = k ++ '=' :: (natStr v ++ r) ∧ Stops Digit r ∧
      (l = [] ∧ r = [] ∨ l ≠ [] ∧ r = ',' :: joinStr ',' (l.map doText)) := by
    intro k v l
    cases l with
    | nil => exact ⟨[], by simp [joinStr, doText], stops_nil, Or.inl ⟨rfl, rfl⟩⟩
    | cons a l => exact ⟨',' :: joinStr ',' ((a :: l).map doText), by simp [joinStr, doText], stops_cons (not_digit (by simp)), Or.inr ⟨by simp, rfl⟩⟩
  induction l generalizing l' with
  | nil =>
    cases l' with
    | nil => rfl
    | cons kv l' => exact absurd h.symm (hne kv l')
  | cons kv l ih =>
    cases l' with
    | nil => exact absurd h (hne kv l)
    | cons kv' l' =>
      obtain ⟨k, v⟩ := kv
      obtain ⟨k', v'⟩ := kv'
      obtain ⟨r, e, hr, hc⟩ := hform k v l
      obtain ⟨r', e', hr', hc'⟩ := hform k' v' l'
      rw [e, e'] at h
      have ne : ∀ k : Str, '=' ∉ k → ∀ x ∈ k, ¬ x = '=' := by
        intro k hk x hx e
        exact hk (e ▸ hx)
      obtain ⟨rfl, hq⟩ := span_inj (P := fun x => ¬ x = '=') (ne k (h1 (k, v) (by simp))) (ne k' (h2 (k', v') (by simp)))
        (stops_cons (by simp)) (stops_cons (by simp)) h
      obtain ⟨rfl, hz⟩ := natStr_span hr hr' (List.cons.inj hq).2
      congr 1
      rcases hc with ⟨rfl, rfl⟩ | ⟨hl, rfl⟩ <;> rcases hc' with ⟨rfl, rfl⟩ | ⟨hl', rfl⟩
      · rfl
      · simp at hz
      · simp at hz
      · simp only [List.cons.injEq, true_and] at hz
        exact ih (fun kv hkv => h1 kv (by simp [hkv])) (fun kv hkv => h2 kv (by simp [hkv])) hz

/-- Two operator names that coincide, with or without copy indices: everything that is displayed coincides. -/
theorem opName_inj {c c' : Bool} {i j : Interp} (hi : ∀ x ∈ i.party, ¬ Sep x) (hj : ∀ x ∈ j.party, ¬ Sep x)
    (hki : ∀ kv ∈ i.doValues, '=' ∉ kv.1) (hkj : ∀ kv ∈ j.doValues, '=' ∉ kv.1)
    (hsame : i.party = j.party → i.privateTrivial = j.privateTrivial) (h : opName c i = opName c' j) :
    c = c' ∧ i.party = j.party ∧ (i.privateTrivial = false → i.priv = j.priv) ∧ (c = true → i.copies = j.copies) ∧ i.outcome = j.outcome ∧ i.doValues = j.doValues := by
  rw [opName_eq, opName_eq] at h
  obtain ⟨hp, h⟩ := span_inj hi hj (tailName_stops _ i) (tailName_stops _ j) h
  have htr := hsame hp
  have hrest : (i.privateTrivial = false → i.priv = j.priv) ∧
      copyPart c i ++ '=' :: (natStr i.outcome ++ doPart i) = copyPart c' j ++ '=' :: (natStr j.outcome ++ doPart j) := by
    unfold tailName at h
    by_cases hb : i.privateTrivial = true
    · rw [← htr] at h
      simp only [hb, if_true, List.nil_append] at h
      exact ⟨fun e => by simp [hb] at e, h⟩
    · rw [← htr] at h
      simp only [hb, Bool.false_eq_true, if_false, List.cons_append, List.cons.injEq, true_and] at h
      obtain ⟨e1, e2⟩ := natStr_span (copyPart_stops c i _) (copyPart_stops c' j _) h
      exact ⟨fun _ => e1, e2⟩
  have h2 := hrest.2
  have key : ∀ (i j : Interp) (w w' : Str), copyPart true i ++ '=' :: w ≠ copyPart false j ++ '=' :: w' := by
    intro i j w w' hw
    unfold copyPart at hw
    by_cases hr : i.relevant.isEmpty = true
    · simp [hr] at hw
    · simp [hr] at hw
  have hc : c = c' := by
    cases c <;> cases c'
    · rfl
    · exact absurd h2.symm (key j i _ _)
    · exact absurd h2 (key i j _ _)
    · rfl
  subst hc
  have h3 : (c = true → i.copies = j.copies) ∧ natStr i.outcome ++ doPart i = natStr j.outcome ++ doPart j := by
    unfold copyPart at h2
    by_cases hc : c = true
    · simp only [hc, if_true] at h2
      obtain ⟨e1, e2⟩ := copies_eq_span h2
      exact ⟨fun _ => e1, e2⟩
    · simp only [hc, Bool.false_eq_true, if_false, List.nil_append] at h2
      exact ⟨fun e => absurd e hc, (List.cons.inj h2).2⟩
  have hds : ∀ i : Interp, Stops Digit (doPart i) := by
    intro i
    have := doPart_stops i (s := []) stops_nil
    rwa [List.append_nil] at this
  obtain ⟨e1, e2⟩ := natStr_span (hds i) (hds j) h3.2
  refine ⟨rfl, hp, hrest.1, h3.1, e1, ?_⟩
  unfold doPart at e2
  by_cases b1 : i.doValues.isEmpty = true <;> by_cases b2 : j.doValues.isEmpty = true
  · rw [List.isEmpty_iff.1 b1, List.isEmpty_iff.1 b2]
  · simp [b1, b2] at e2
  · simp [b1, b2] at e2
  · simp only [b1, b2, if_false, Bool.false_eq_true, List.append_assoc] at e2
    have e3 := List.append_cancel_right (List.append_cancel_left e2)
    exact doList_inj hki hkj e3

/-- The do-values that are displayed. -/
def shownDo (f : Bool) (ops : List Interp) (d : List (Str × Nat)) : List (Str × Nat) := if f then cleanDo ops d else d

theorem atomName_eq (c f com : Bool) (ops : List Interp) :
    atomName c f com ops = (if com then 'P' :: '[' :: joinStr ' ' (ops.map fun i => opName (c && !f) { i with doValues := shownDo f ops i.doValues }) ++ [']']
      else '<' :: joinStr ' ' (ops.map fun i => opName (c && !f) { i with doValues := shownDo f ops i.doValues }) ++ ['>']) := by
  unfold atomName shownDo
  cases f <;> simp

theorem shownDo_inj {f f' : Bool} {ops ops' : List Interp} (ho : ∀ p, outcomesOf ops p = outcomesOf ops' p) {ks : List Str} (hk : ks.Nodup)
    {v v' : List Nat} (hv : v.length = ks.length) (hv' : v'.length = ks.length) (h : shownDo f ops (ks.zip v) = shownDo f' ops' (ks.zip v')) : v = v' := by
  have hsub : ∀ (f : Bool) (ops : List Interp) (d : List (Str × Nat)), ∀ kv ∈ shownDo f ops d, kv ∈ d := by
    intro f ops d kv h
    unfold shownDo cleanDo at h
    split at h
    · exact List.mem_of_mem_filter h
    · exact h
  have hnot : ∀ (f : Bool) (ops : List Interp) (d : List (Str × Nat)), ∀ kv ∈ d, kv ∉ shownDo f ops d → outcomesOf ops kv.1 = [kv.2] := by
    intro f ops d kv h h'
    unfold shownDo cleanDo at h'
    split at h'
    · rw [List.mem_filter] at h'
      by_contra hc
      exact h' ⟨h, by simpa using hc⟩
    · exact absurd h h'
  have hfun : ∀ (v : List Nat), v.length = ks.length → ∀ (n : Nat) (h : n < ks.length) (x : Nat), (ks[n], x) ∈ ks.zip v → v[n]? = some x := by
    intro v hv n hn x hx
    obtain ⟨m, hm, e⟩ := List.getElem_of_mem hx
    rw [List.getElem_zip] at e
    have e1 := (Prod.mk.inj e).1
    have e2 := (Prod.mk.inj e).2
    have hm1 : m < ks.length := by rw [List.length_zip] at hm; omega
    have : m = n := (List.Nodup.getElem_inj_iff hk).1 e1
    subst this
    rw [List.getElem?_eq_getElem (by omega), e2]
  apply List.ext_getElem (by omega)
  intro n h1 h2
  have hn : n < ks.length := by omega
  have m1 : (ks[n], v[n]) ∈ ks.zip v := by
    have := List.getElem_mem (l := ks.zip v) (n := n) (by simp; omega)
    rwa [List.getElem_zip] at this
  have m2 : (ks[n], v'[n]) ∈ ks.zip v' := by
    have := List.getElem_mem (l := ks.zip v') (n := n) (by simp; omega)
    rwa [List.getElem_zip] at this
  by_cases c1 : (ks[n], v[n]) ∈ shownDo f ops (ks.zip v)
  · rw [h] at c1
    have := hfun v' hv' n hn _ (hsub _ _ _ _ c1)
    rw [List.getElem?_eq_getElem (by omega)] at this
    exact (Option.some.inj this).symm
  · by_cases c2 : (ks[n], v'[n]) ∈ shownDo f' ops' (ks.zip v')
    · rw [← h] at c2
      have := hfun v hv n hn _ (hsub _ _ _ _ c2)
      rw [List.getElem?_eq_getElem (by omega)] at this
      exact Option.some.inj this
    · have e1 := hnot _ _ _ _ m1 c1
      have e2 := hnot _ _ _ _ m2 c2
      rw [ho, e2] at e1
      simpa using e1.symm

theorem keys_nodup (hf : Fits S N) {p : Nat} (hpar : ∀ q ∈ N.parents p, q < S.nParties) (hnd : (N.parents p).Nodup) :
    ((N.parents p).map fun q => N.names.getD q []).Nodup := by
  rw [List.nodup_map_iff_inj_on hnd]
  intro x hx y hy e
  have h1 : x < N.names.length := by rw [hf.len]; exact hpar x hx
  have h2 : y < N.names.length := by rw [hf.len]; exact hpar y hy
  rw [List.getD_eq_getElem _ _ h1, List.getD_eq_getElem _ _ h2] at e
  exact (List.Nodup.getElem_inj_iff hf.nodup).1 e

theorem mapM_some_forall2 {α β : Type} {f : α → Option β} {l : List α} {r : List β} (h : l.mapM f = some r) : List.Forall₂ (fun a b => f a = some b) l r := by
  induction l generalizing r with
  | nil =>
    simp only [List.mapM_nil, Option.pure_def, Option.some.injEq] at h
    subst h
    exact List.Forall₂.nil
  | cons a l ih =>
    rw [List.mapM_cons] at h
    rcases hb : f a with _ | b
    · rw [hb] at h; simp at h
    rcases hr : l.mapM f with _ | rs
    · rw [hb, hr] at h; simp at h
    rw [hb, hr] at h
    simp only [Option.pure_def, Option.bind_eq_bind, Option.bind_some, Option.some.injEq] at h
    subst h
    exact List.Forall₂.cons hb (ih hr)

/-- **C40, names of atomic moments.** If two atomic moments have the same display name, then their operators agree in order in party, setting and outcome, including the do-values that are not displayed; they are equal if one of the two is displayed with copy indices or there is no inflation; and they agree on whether all operators commute and, if there is inflation, on whether copy indices are displayed. -/
theorem C40_moment_names (hf : Fits S N) (hav : Avoid N ['_', '^', '=', ' ']) (hpar : ∀ p < S.nParties, ∀ q ∈ N.parents p, q < S.nParties)
    (hnd : ∀ p < S.nParties, (N.parents p).Nodup) (u v : List Op) (hu : ∀ a ∈ u, Valid S a) (hv : ∀ a ∈ v, Valid S a) (hune : u ≠ []) (hvne : v ≠ [])
    (f f' com com' : Bool) (h : momentName S N f com u = momentName S N f' com' v) :
    com = com' ∧ (anyInflation S = true → f = f') ∧ u.map (fun a => (a.party, a.setting, a.outcome)) = v.map (fun a => (a.party, a.setting, a.outcome)) ∧
      (f = false ∨ anyInflation S = false → u = v) := by
  have hav3 : Avoid N ['_', '^', '='] := avoid_sub hav (by simp)
  obtain ⟨iu, hiu⟩ := mapM_isSome (f := interpret S N) (l := u) (fun a ha => by obtain ⟨i, -, hi, -⟩ := interpret_some hf (hu a ha); exact ⟨i, hi⟩)
  obtain ⟨iv, hiv⟩ := mapM_isSome (f := interpret S N) (l := v) (fun a ha => by obtain ⟨i, -, hi, -⟩ := interpret_some hf (hv a ha); exact ⟨i, hi⟩)
  unfold momentName at h
  rw [hiu, hiv, Option.map_some, Option.map_some, Option.some.injEq, atomName_eq, atomName_eq] at h
  have fu := mapM_some_forall2 hiu
  have fv := mapM_some_forall2 hiv
  -- facts about an interpretation
  have facts : ∀ (w : List Op) (iw : List Interp), (∀ a ∈ w, Valid S a) → List.Forall₂ (fun a b => interpret S N a = some b) w iw →
      ∀ i ∈ iw, i.party ∈ N.names ∧ ∀ kv ∈ i.doValues, kv.1 ∈ N.names := by
    intro w iw hw hF
    induction hF with
    | nil => intro i hi; simp at hi
    | @cons a i w iw h _ ih =>
      intro j hj
      rcases List.mem_cons.1 hj with rfl | hj
      · have ha := hw a (by simp)
        obtain ⟨t, hi⟩ := interp_of hf ha h
        refine ⟨by rw [hi.party]; exact name_mem hf ha, ?_⟩
        rintro ⟨k, x⟩ hkv
        rw [hi.doValues] at hkv
        obtain ⟨q, hq, rfl⟩ := List.mem_map.1 (List.of_mem_zip hkv).1
        have : q < N.names.length := by rw [hf.len]; exact hpar _ (by have := ha.party_le; have := ha.party_pos; omega) q hq
        rw [List.getD_eq_getElem _ _ this]
        exact List.getElem_mem this
      · exact ih (fun x hx => hw x (by simp [hx])) j hj
  have factsU := facts u iu hu fu
  have factsV := facts v iv hv fv
  have shownSub : ∀ (f : Bool) (ops : List Interp) (d : List (Str × Nat)), ∀ kv ∈ shownDo f ops d, kv ∈ d := by
    intro f ops d kv h
    unfold shownDo cleanDo at h
    split at h
    · exact List.mem_of_mem_filter h
    · exact h
  have noSpace : ∀ (w : List Interp), (∀ i ∈ w, i.party ∈ N.names ∧ ∀ kv ∈ i.doValues, kv.1 ∈ N.names) → ∀ (c f : Bool),
      ∀ n ∈ w.map (fun i => opName c { i with doValues := shownDo f w i.doValues }), ' ' ∉ n := by
    intro w hw c f n hn hsp
    obtain ⟨i, hi, rfl⟩ := List.mem_map.1 hn
    rcases mem_opName' (N := N) (i := { i with doValues := shownDo f w i.doValues }) (hw i hi).1 (fun kv hkv => (hw i hi).2 kv (shownSub _ _ _ kv hkv)) hsp with ⟨n, hn, h⟩ | h | h
    · exact hav n hn ' ' (by simp) h
    · revert h; unfold Digit; decide
    · revert h; decide
  have neU : iu ≠ [] := by rintro rfl; cases fu; exact hune rfl
  have neV : iv ≠ [] := by rintro rfl; cases fv; exact hvne rfl
  have hcom : com = com' := by
    cases com <;> cases com'
    · rfl
    · simp at h
    · simp at h
    · rfl
  subst hcom
  have hj : joinStr ' ' (iu.map fun i => opName (anyInflation S && !f) { i with doValues := shownDo f iu i.doValues }) =
      joinStr ' ' (iv.map fun i => opName (anyInflation S && !f') { i with doValues := shownDo f' iv i.doValues }) := by
    cases com
    · simp only [Bool.false_eq_true, if_false] at h
      exact (List.cons.inj (List.append_cancel_right h)).2
    · simp only [if_true] at h
      exact (List.cons.inj (List.cons.inj (List.append_cancel_right h)).2).2
  have hl := joinStr_inj (by simpa using neU) (by simpa using neV) (noSpace iu factsU _ f) (noSpace iv factsV _ f') hj
  -- operators at the same place
  have hlen : iu.length = iv.length := by simpa using congrArg List.length hl
  have lu := fu.length_eq
  have lv := fv.length_eq
  have noSepN : ∀ s ∈ N.names, ∀ x ∈ s, ¬ Sep x := by
    intro s hs x hx hsep
    rcases hsep with rfl | rfl | rfl <;> exact hav s hs _ (by simp) hx
  have noEq : ∀ s ∈ N.names, '=' ∉ s := fun s hs => hav s hs _ (by simp)
  have getU : ∀ (n : Nat) (h1 : n < u.length) (h2 : n < iu.length), interpret S N u[n] = some iu[n] := by
    intro n h1 h2
    exact (List.forall₂_iff_get.1 fu).2 n h1 h2
  have getV : ∀ (n : Nat) (h1 : n < v.length) (h2 : n < iv.length), interpret S N v[n] = some iv[n] := by
    intro n h1 h2
    exact (List.forall₂_iff_get.1 fv).2 n h1 h2
  have hat : ∀ (n : Nat) (h1 : n < iu.length) (h2 : n < iv.length) (h3 : n < u.length) (h4 : n < v.length),
      (anyInflation S && !f) = (anyInflation S && !f') ∧ u[n].party = v[n].party ∧ (iu[n].privateTrivial = false → iu[n].priv = iv[n].priv) ∧
      ((anyInflation S && !f) = true → u[n].copies = v[n].copies) ∧ u[n].outcome = v[n].outcome ∧
      shownDo f iu iu[n].doValues = shownDo f' iv iv[n].doValues := by
    intro n h1 h2 h3 h4
    have e : (iu.map fun i => opName (anyInflation S && !f) { i with doValues := shownDo f iu i.doValues })[n]'(by simpa using h1) =
        (iv.map fun i => opName (anyInflation S && !f') { i with doValues := shownDo f' iv i.doValues })[n]'(by simpa using h2) := by simp only [hl]
    rw [List.getElem_map, List.getElem_map] at e
    have fi := factsU iu[n] (List.getElem_mem h1)
    have fj := factsV iv[n] (List.getElem_mem h2)
    have vu := hu u[n] (List.getElem_mem h3)
    have vv := hv v[n] (List.getElem_mem h4)
    obtain ⟨t, hi⟩ := interp_of hf vu (getU n h3 h1)
    obtain ⟨t', hi'⟩ := interp_of hf vv (getV n h4 h2)
    obtain ⟨e1, e2, e3, e4, e5, e6⟩ := opName_inj (i := { iu[n] with doValues := shownDo f iu iu[n].doValues }) (j := { iv[n] with doValues := shownDo f' iv iv[n].doValues })
      (noSepN _ fi.1) (noSepN _ fj.1)
      (fun kv hkv => noEq _ (fi.2 kv (shownSub _ _ _ kv hkv))) (fun kv hkv => noEq _ (fj.2 kv (shownSub _ _ _ kv hkv)))
      (by
        intro e
        have e' : iu[n].party = iv[n].party := e
        rw [hi.party, hi'.party] at e'
        show iu[n].privateTrivial = iv[n].privateTrivial
        rw [hi.privateTrivial, hi'.privateTrivial, party_eq hf vu vv e']) e
    have e2' : iu[n].party = iv[n].party := e2
    rw [hi.party, hi'.party] at e2'
    refine ⟨e1, party_eq hf vu vv e2', e3, ?_, ?_, e6⟩
    · intro hc
      have : iu[n].copies = iv[n].copies := e4 hc
      rwa [hi.copies, hi'.copies] at this
    · have : iu[n].outcome = iv[n].outcome := e5
      rwa [hi.outcome, hi'.outcome] at this
  have hpo : iu.map (fun i => (i.party, i.outcome)) = iv.map fun i => (i.party, i.outcome) := by
    apply List.ext_getElem (by simpa using hlen)
    intro n h1 h2
    simp only [List.length_map] at h1 h2
    rw [List.getElem_map, List.getElem_map]
    have h3 : n < u.length := by omega
    have h4 : n < v.length := by omega
    obtain ⟨-, e2, -, -, e5, -⟩ := hat n h1 h2 h3 h4
    obtain ⟨t, hi⟩ := interp_of hf (hu u[n] (List.getElem_mem h3)) (getU n h3 h1)
    obtain ⟨t', hi'⟩ := interp_of hf (hv v[n] (List.getElem_mem h4)) (getV n h4 h2)
    rw [hi.party, hi'.party, hi.outcome, hi'.outcome, e2, e5]
  have hout : ∀ p, outcomesOf iu p = outcomesOf iv p := by
    intro p
    have e : ∀ w : List Interp, outcomesOf w p = (((w.map fun i => (i.party, i.outcome)).filter fun t => t.1 == p).map (·.2)).eraseDups := by
      intro w
      unfold outcomesOf
      rw [List.filter_map, List.map_map]
      rfl
    rw [e, e, hpo]
  have hset : ∀ (n : Nat) (h1 : n < iu.length) (h2 : n < iv.length) (h3 : n < u.length) (h4 : n < v.length), u[n].setting = v[n].setting := by
    intro n h1 h2 h3 h4
    obtain ⟨-, e2, e3, -, -, e6⟩ := hat n h1 h2 h3 h4
    have vu := hu u[n] (List.getElem_mem h3)
    obtain ⟨t, hi⟩ := interp_of hf vu (getU n h3 h1)
    obtain ⟨t', hi'⟩ := interp_of hf (hv v[n] (List.getElem_mem h4)) (getV n h4 h2)
    refine setting_eq hi hi' e2 e3 ?_
    have hp : u[n].party - 1 < S.nParties := by have := vu.party_le; have := vu.party_pos; omega
    rw [hi.doValues, hi'.doValues, ← e2] at e6
    exact shownDo_inj hout (keys_nodup hf (hpar _ hp) (hnd _ hp)) (by simp [hi.lenT]) (by simp [hi'.lenT, e2]) e6
  have hpos : 0 < iu.length := List.length_pos_iff.2 neU
  refine ⟨rfl, ?_, ?_, ?_⟩
  · intro ha
    have := (hat 0 hpos (by omega) (by omega) (by omega)).1
    rw [ha] at this
    simpa using this
  · apply List.ext_getElem (by simp; omega)
    intro n h1 h2
    simp only [List.length_map] at h1 h2
    rw [List.getElem_map, List.getElem_map]
    obtain ⟨-, e2, -, -, e5, -⟩ := hat n (by omega) (by omega) h1 h2
    rw [e2, e5, hset n (by omega) (by omega) h1 h2]
  · intro hor
    apply List.ext_getElem (by omega)
    intro n h1 h2
    obtain ⟨-, e2, -, e4, e5, -⟩ := hat n (by omega) (by omega) h1 h2
    refine op_ext e2 ?_ (hset n (by omega) (by omega) h1 h2) e5
    by_cases hi : anyInflation S = true
    · rcases hor with rfl | hor
      · exact e4 (by simp [hi])
      · rw [hi] at hor; simp at hor
    · exact copies_eq_of_no_inflation (by simpa using hi) (hu _ (List.getElem_mem h1)) (hv _ (List.getElem_mem h2)) e2

end Verif.Names

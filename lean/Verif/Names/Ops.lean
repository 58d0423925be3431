import Verif.Names.Lemmas
import Verif.Names.Spec
import Verif.Scenario.Props
/-
The names of single operators.
-/
namespace Verif.Names
open Verif.Scenario Verif.Text Verif.State

variable {S : Scenario} {N : Naming}

/-- What is known about the interpretation of an operator of the problem. -/
structure InterpOf (S : Scenario) (N : Naming) (op : Op) (i : Interp) (t : List Nat) : Prop where
  decode : decodeSetting (dims S N (op.party - 1)) op.setting = some t
  lenT : t.length = (N.parents (op.party - 1)).length + 1
  headLt : t.headD 0 < N.priv (op.party - 1)
  party : i.party = N.names.getD (op.party - 1) []
  outcome : i.outcome = op.outcome
  composite : i.composite = op.setting
  compositeTrivial : i.compositeTrivial = (S.settings (op.party - 1) == 1)
  priv : i.priv = t.headD 0
  privateTrivial : i.privateTrivial = (N.priv (op.party - 1) == 1)
  doValues : i.doValues = ((N.parents (op.party - 1)).map fun q => N.names.getD q []).zip t.tail
  copies : i.copies = op.copies

theorem interpret_some (hf : Fits S N) {op : Op} (hv : Valid S op) : ∃ i t, interpret S N op = some i ∧ InterpOf S N op i t := by
  have h1 := hv.party_pos
  have h2 := hv.party_le
  have hp : op.party - 1 < S.nParties := by omega
  have hset := hv.setting_lt
  rw [hf.settings _ hp] at hset
  obtain ⟨t, ht⟩ := ((C13_effective_settings_bijective (dims S N (op.party - 1))).1 op.setting).2 hset
  have hr := ((C13_effective_settings_bijective (dims S N (op.party - 1))).2.1 t).1 ⟨_, ht⟩
  have hlen : t.length = (N.parents (op.party - 1)).length + 1 := by
    rw [hr.1]
    simp [dims]
  refine ⟨_, t, by unfold interpret; rw [ht]; rfl, ?_⟩
  refine ⟨ht, hlen, ?_, rfl, rfl, rfl, rfl, rfl, rfl, rfl, rfl⟩
  have := hr.2 0 (by simp [dims]) (by omega)
  rcases t with _ | ⟨a, t⟩
  · simp at hlen
  · simpa [dims] using this

theorem interp_of (hf : Fits S N) {op : Op} (hv : Valid S op) {i : Interp} (h : interpret S N op = some i) : ∃ t, InterpOf S N op i t := by
  obtain ⟨i', t, h', hi⟩ := interpret_some hf hv
  rw [h] at h'
  obtain rfl := Option.some.inj h'
  exact ⟨t, hi⟩

theorem name_mem (hf : Fits S N) {op : Op} (hv : Valid S op) : N.names.getD (op.party - 1) [] ∈ N.names := by
  have h1 := hv.party_pos
  have h2 := hv.party_le
  have hp : op.party - 1 < N.names.length := by rw [hf.len]; omega
  rw [List.getD_eq_getElem _ _ hp]
  exact List.getElem_mem hp

theorem party_eq (hf : Fits S N) {a b : Op} (ha : Valid S a) (hb : Valid S b) (h : N.names.getD (a.party - 1) [] = N.names.getD (b.party - 1) []) :
    a.party = b.party := by
  have h1 := ha.party_pos
  have h2 := ha.party_le
  have h3 := hb.party_pos
  have h4 := hb.party_le
  have hp : a.party - 1 < N.names.length := by rw [hf.len]; omega
  have hq : b.party - 1 < N.names.length := by rw [hf.len]; omega
  rw [List.getD_eq_getElem _ _ hp, List.getD_eq_getElem _ _ hq] at h
  have := (List.Nodup.getElem_inj_iff hf.nodup).1 h
  omega

/-- Without several copies of a source the copy labels of an operator follow from its party. -/
theorem copies_eq_of_no_inflation (hn : anyInflation S = false) {a b : Op} (ha : Valid S a) (hb : Valid S b) (h : a.party = b.party) : a.copies = b.copies := by
  refine List.ext_getElem (by rw [ha.copies_len, hb.copies_len]) ?_
  intro s hs hs'
  have h1 := ha.copies_ok s hs
  have h2 := hb.copies_ok s hs'
  have hl : S.level s ≤ 1 := by
    unfold anyInflation at hn
    rw [List.any_eq_false] at hn
    have := hn s (by rw [List.mem_range, ← ha.copies_len]; exact hs)
    simpa using this
  rw [← h] at h2
  split at h1
  · rename_i hc
    simp only [hc, if_true] at h2
    omega
  · rename_i hc
    simp only [hc] at h2
    rw [h1]
    exact h2.symm

/-- Equality of party, private setting and do-values determines the setting. -/
theorem setting_eq {a b : Op} {i j : Interp} {t u : List Nat} (ha : InterpOf S N a i t) (hb : InterpOf S N b j u) (hp : a.party = b.party)
    (hpriv : i.privateTrivial = false → i.priv = j.priv) (hd : t.tail = u.tail) : a.setting = b.setting := by
  have hhead : t.headD 0 = u.headD 0 := by
    by_cases hb1 : i.privateTrivial = true
    · have h1 := ha.privateTrivial
      rw [hb1] at h1
      have h2 : N.priv (a.party - 1) = 1 := by simpa using h1.symm
      have h3 := ha.headLt
      have h4 := hb.headLt
      rw [← hp] at h4
      omega
    · have := hpriv (by simpa using hb1)
      rw [ha.priv, hb.priv] at this
      exact this
  have htu : t = u := by
    have l1 := ha.lenT
    have l2 := hb.lenT
    rcases t with _ | ⟨x, t⟩
    · simp at l1
    rcases u with _ | ⟨y, u⟩
    · simp at l2
    simp only [List.headD_cons, List.tail_cons] at hhead hd
    rw [hhead, hd]
  have h1 := ha.decode
  have h2 := hb.decode
  rw [← hp] at h2
  rw [← htu] at h2
  exact (C13_effective_settings_bijective _).2.2 _ _ _ h1 h2

theorem noSep (hav : Avoid N ['_', '^', '=']) (hf : Fits S N) {op : Op} (hv : Valid S op) {i : Interp} {t : List Nat} (h : InterpOf S N op i t) :
    ∀ x ∈ i.party, ¬ Sep x := by
  intro x hx hs
  rw [h.party] at hx
  have := hav _ (name_mem hf hv) x
  rcases hs with rfl | rfl | rfl <;> exact this (by simp) hx

/-- Two operator names that coincide up to what follows. -/
theorem opName_ops (hav : Avoid N ['_', '^', '=']) (hf : Fits S N) {a b : Op} (ha : Valid S a) (hb : Valid S b) {i j : Interp} {t u : List Nat}
    (hi : InterpOf S N a i t) (hj : InterpOf S N b j u) {c : Bool} {s s' : Str}
    (hs : Stops (fun x => Digit x ∨ x = '|') s) (hs' : Stops (fun x => Digit x ∨ x = '|') s') (h : opName c i ++ s = opName c j ++ s') :
    a.party = b.party ∧ (c = true → a.copies = b.copies) ∧ a.setting = b.setting ∧ a.outcome = b.outcome ∧ s = s' := by
  have hpar : i.party = j.party → a.party = b.party := by
    rw [hi.party, hj.party]
    exact party_eq hf ha hb
  obtain ⟨e1, e2, e3, e4, e5, e6⟩ := opName_span hi.doValues hj.doValues
    (by simp [hi.lenT]) (by simp [hj.lenT]) (noSep hav hf ha hi) (noSep hav hf hb hj)
    (by
      intro e
      have := hpar e
      rw [hi.privateTrivial, hj.privateTrivial, this]
      exact ⟨rfl, rfl⟩) hs hs' h
  have hp := hpar e1
  refine ⟨hp, ?_, setting_eq hi hj hp e2 e5, ?_, e6⟩
  · intro hc
    have := e3 hc
    rwa [hi.copies, hj.copies] at this
  · rwa [hi.outcome, hj.outcome] at e4

theorem op_ext {a b : Op} (h1 : a.party = b.party) (h2 : a.copies = b.copies) (h3 : a.setting = b.setting) (h4 : a.outcome = b.outcome) : a = b := by
  cases a
  cases b
  simp_all

theorem display_inj (hav : Avoid N ['_', '^', '=']) (hf : Fits S N) {a b : Op} (ha : Valid S a) (hb : Valid S b) {i j : Interp} {t u : List Nat}
    (hi : InterpOf S N a i t) (hj : InterpOf S N b j u) (h : opName (anyInflation S) i = opName (anyInflation S) j) : a = b := by
  obtain ⟨h1, h2, h3, h4, -⟩ := opName_ops hav hf ha hb hi hj (s := []) (s' := []) stops_nil stops_nil (by rw [h])
  refine op_ext h1 ?_ h3 h4
  by_cases hc : anyInflation S = true
  · exact h2 hc
  · exact copies_eq_of_no_inflation (by simpa using hc) ha hb h1

/-- A name with copy indices is not a name without. -/
theorem display_ne_free (hav : Avoid N ['_', '^', '=']) (hf : Fits S N) {a b : Op} (ha : Valid S a) (hb : Valid S b) {i j : Interp} {t u : List Nat}
    (hi : InterpOf S N a i t) (hj : InterpOf S N b j u) : opName true i ≠ opName false j := by
  intro h
  rw [opName_eq, opName_eq] at h
  obtain ⟨hp, h⟩ := span_inj (noSep hav hf ha hi) (noSep hav hf hb hj) (tailName_stops _ i) (tailName_stops _ j) h
  have hpar : a.party = b.party := by
    rw [hi.party, hj.party] at hp
    exact party_eq hf ha hb hp
  have htr : i.privateTrivial = j.privateTrivial := by rw [hi.privateTrivial, hj.privateTrivial, hpar]
  have key : ∀ w w' : Str, copyPart true i ++ '=' :: w ≠ copyPart false j ++ '=' :: w' := by
    intro w w' hw
    unfold copyPart at hw
    by_cases hr : i.relevant.isEmpty = true
    · simp [hr] at hw
    · simp [hr] at hw
  unfold tailName at h
  rw [← htr] at h
  by_cases hb1 : i.privateTrivial = true
  · simp only [hb1, if_true, List.nil_append] at h
    exact key _ _ h
  · simp only [hb1, Bool.false_eq_true, if_false, List.cons_append, List.cons.injEq, true_and] at h
    exact key _ _ (natStr_span (copyPart_stops _ i _) (copyPart_stops _ j _) h).2

/-! ### Legacy names -/

theorem joinNat_span_len {sep : Char} (hsep : ¬ Digit sep) {l l' : List Nat} {s t : Str} (hl : l.length = l'.length) (hs : Stops Digit s)
    (ht : Stops Digit t) (h : joinNat sep l ++ s = joinNat sep l' ++ t) : l = l' ∧ s = t := by
  induction l generalizing l' with
  | nil =>
    obtain rfl := List.length_eq_zero_iff.1 hl.symm
    exact ⟨rfl, h⟩
  | cons a l ih =>
    rcases l' with _ | ⟨b, l'⟩
    · simp at hl
    simp only [List.length_cons, Nat.add_right_cancel_iff] at hl
    rcases l with _ | ⟨a', l⟩
    · obtain rfl := List.length_eq_zero_iff.1 hl.symm
      obtain ⟨rfl, e⟩ := natStr_span hs ht h
      exact ⟨rfl, e⟩
    · rcases l' with _ | ⟨b', l'⟩
      · simp at hl
      rw [joinNat, joinNat, List.append_assoc, List.cons_append, List.append_assoc, List.cons_append] at h
      obtain ⟨rfl, e⟩ := natStr_span (stops_cons hsep) (stops_cons hsep) h
      obtain ⟨e1, e2⟩ := ih hl (List.cons.inj e).2
      exact ⟨by rw [e1], e2⟩

/-- The legacy name with an arbitrary text for the setting. -/
def oldWith (set : Str) (i : Interp) : Str := i.party ++ '_' :: (joinNat '_' i.copies ++ '_' :: (set ++ '_' :: natStr i.outcome))

theorem oldName_eq (i : Interp) : oldName i = oldWith (if i.compositeTrivial then ['∅'] else natStr i.composite) i := by
  unfold oldName oldWith
  simp only [List.append_assoc, List.cons_append]

theorem oldWith_span {i j : Interp} {s t : Str} (hi : '_' ∉ i.party) (hj : '_' ∉ j.party) (hl : i.copies.length = j.copies.length)
    (hs : '_' ∉ s) (ht : '_' ∉ t) (h : oldWith s i = oldWith t j) : i.party = j.party ∧ i.copies = j.copies ∧ s = t ∧ i.outcome = j.outcome := by
  have hu : ¬ Digit '_' := not_digit (by simp)
  have nm : ∀ {s : Str}, '_' ∉ s → ∀ x ∈ s, ¬ x = '_' := by
    intro s hs x hx e
    exact hs (e ▸ hx)
  have st : ∀ w : Str, Stops (fun x => ¬ x = '_') ('_' :: w) := fun w => stops_cons (by simp)
  obtain ⟨e1, e2⟩ := span_inj (nm hi) (nm hj) (st _) (st _) h
  obtain ⟨e3, e4⟩ := joinNat_span_len hu hl (stops_cons hu) (stops_cons hu) (List.cons.inj e2).2
  obtain ⟨e5, e6⟩ := span_inj (nm hs) (nm ht) (st _) (st _) (List.cons.inj e4).2
  exact ⟨e1, e3, e5, natStr_inj (List.cons.inj e6).2⟩

theorem not_us_natStr (n : Nat) : '_' ∉ natStr n := not_mem_natStr n _ (by decide)

/-- The two legacy names of an operator. -/
theorem oldName0_eq {i : Interp} (hav : '∅' ∉ i.party) (htr : i.compositeTrivial = true → i.composite = 0) :
    (oldName i).map (fun c => if c = '∅' then '0' else c) = oldWith (natStr i.composite) i := by
  have hn : ∀ n, '∅' ∉ natStr n := fun n => not_mem_natStr n _ (by decide)
  have hj : ∀ l, '∅' ∉ joinNat '_' l := by
    intro l
    induction l with
    | nil => simp [joinNat]
    | cons a l ih =>
      cases l with
      | nil => exact hn a
      | cons b l =>
        rw [joinNat, List.mem_append, List.mem_cons, not_or, not_or]
        exact ⟨hn a, by decide, ih⟩
  have id : ∀ {s : Str}, '∅' ∉ s → s.map (fun c => if c = '∅' then '0' else c) = s := by
    intro s hs
    conv_rhs => rw [← List.map_id s]
    refine List.map_congr_left ?_
    intro c hc
    rw [if_neg (by rintro rfl; exact hs hc)]
    rfl
  rw [oldName_eq]
  unfold oldWith
  simp only [List.map_append, List.map_cons, id hav, id (hj _), id (hn _)]
  have hus : (if '_' = '∅' then '0' else '_') = '_' := by decide
  rw [hus]
  by_cases hc : i.compositeTrivial = true
  · rw [htr hc]
    simp only [hc, if_true]
    rfl
  · simp only [hc, Bool.false_eq_true, if_false, id (hn _)]

end Verif.Names

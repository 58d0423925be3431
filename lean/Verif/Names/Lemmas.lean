import Verif.Names.Model
/-
Unique readability of the texts built by the naming functions.
-/
namespace Verif.Names
open Verif.Scenario Verif.Text Verif.State

/-- The text is empty or its first character does not satisfy `P`. -/
def Stops (P : Char → Prop) (s : Str) : Prop := ∀ c, s.head? = some c → ¬ P c

theorem stops_cons {P : Char → Prop} {c : Char} {s : Str} (h : ¬ P c) : Stops P (c :: s) := by
  intro d hd
  simp only [List.head?_cons, Option.some.injEq] at hd
  rwa [← hd]

theorem stops_nil {P : Char → Prop} : Stops P [] := by
  intro d hd
  simp at hd

theorem span_inj {P : Char → Prop} {u v s t : Str} (hu : ∀ x ∈ u, P x) (hv : ∀ x ∈ v, P x) (hs : Stops P s) (ht : Stops P t)
    (h : u ++ s = v ++ t) : u = v ∧ s = t := by
  induction u generalizing v with
  | nil =>
    cases v with
    | nil => exact ⟨rfl, h⟩
    | cons d v =>
      exact absurd (hv d (by simp)) (hs d (by simp only [List.nil_append] at h; rw [h]; rfl))
  | cons c u ih =>
    cases v with
    | nil => exact absurd (hu c (by simp)) (ht c (by simp only [List.nil_append] at h; rw [← h]; rfl))
    | cons d v =>
      simp only [List.cons_append, List.cons.injEq] at h
      obtain ⟨rfl, h⟩ := h
      obtain ⟨rfl, e⟩ := ih (fun x hx => hu x (by simp [hx])) (fun x hx => hv x (by simp [hx])) h
      exact ⟨rfl, e⟩

/-- Digits. -/
def Digit (c : Char) : Prop := 48 ≤ c.toNat ∧ c.toNat ≤ 57

theorem natStr_span {a b : Nat} {s t : Str} (hs : Stops Digit s) (ht : Stops Digit t) (h : natStr a ++ s = natStr b ++ t) : a = b ∧ s = t := by
  obtain ⟨h1, h2⟩ := span_inj (P := Digit) (fun x hx => natStr_digit a x hx) (fun x hx => natStr_digit b x hx) hs ht h
  exact ⟨natStr_inj h1, h2⟩

theorem natStr_head (a : Nat) : ∃ c s, natStr a = c :: s ∧ Digit c := by
  rcases h : natStr a with _ | ⟨c, s⟩
  · exact absurd h (natStr_ne_nil a)
  · exact ⟨c, s, rfl, natStr_digit a c (by rw [h]; simp)⟩

theorem joinNat_span {sep : Char} (hsep : ¬ Digit sep) {l l' : List Nat} {s t : Str} (hs : Stops (fun c => Digit c ∨ c = sep) s)
    (ht : Stops (fun c => Digit c ∨ c = sep) t) (h : joinNat sep l ++ s = joinNat sep l' ++ t) : l = l' ∧ s = t := by
  have hs1 : Stops Digit s := fun c hc hd => hs c hc (Or.inl hd)
  have ht1 : Stops Digit t := fun c hc hd => ht c hc (Or.inl hd)
  induction l generalizing l' with
  | nil =>
    cases l' with
    | nil => exact ⟨rfl, h⟩
    | cons a l' =>
      exfalso
      obtain ⟨c, w, hc, hd⟩ := natStr_head a
      have : ∃ w', joinNat sep (a :: l') = c :: w' := by
        cases l' with
        | nil => exact ⟨w, hc⟩
        | cons b l' => exact ⟨_, by rw [joinNat, hc]; rfl⟩
      obtain ⟨w', hw'⟩ := this
      rw [hw'] at h
      exact hs1 c (by simp only [joinNat, List.nil_append] at h; rw [h]; rfl) hd
  | cons a l ih =>
    cases l' with
    | nil =>
      exfalso
      obtain ⟨c, w, hc, hd⟩ := natStr_head a
      have : ∃ w', joinNat sep (a :: l) = c :: w' := by
        cases l with
        | nil => exact ⟨w, hc⟩
        | cons b l => exact ⟨_, by rw [joinNat, hc]; rfl⟩
      obtain ⟨w', hw'⟩ := this
      rw [hw'] at h
      exact ht1 c (by simp only [joinNat, List.nil_append] at h; rw [← h]; rfl) hd
    | cons b l' =>
      cases l with
      | nil =>
        cases l' with
        | nil =>
          obtain ⟨rfl, e⟩ := natStr_span hs1 ht1 h
          exact ⟨rfl, e⟩
        | cons b' l' =>
          exfalso
          rw [joinNat, joinNat, List.append_assoc, List.cons_append] at h
          obtain ⟨rfl, e⟩ := natStr_span hs1 (stops_cons hsep) h
          exact hs sep (by rw [e]; rfl) (Or.inr rfl)
      | cons a' l =>
        cases l' with
        | nil =>
          exfalso
          rw [joinNat, joinNat, List.append_assoc, List.cons_append] at h
          obtain ⟨rfl, e⟩ := natStr_span (stops_cons hsep) ht1 h
          exact ht sep (by rw [← e]; rfl) (Or.inr rfl)
        | cons b' l' =>
          rw [joinNat, joinNat, List.append_assoc, List.cons_append, List.append_assoc, List.cons_append] at h
          obtain ⟨rfl, e⟩ := natStr_span (stops_cons hsep) (stops_cons hsep) h
          obtain ⟨e1, e2⟩ := ih (List.cons.inj e).2
          exact ⟨by rw [e1], e2⟩

/-- A text with a fixed list of do-names. -/
theorem doText_span (ks : List Str) {vs ws : List Nat} {s t : Str} (hv : vs.length = ks.length) (hw : ws.length = ks.length)
    (h : joinStr ',' ((ks.zip vs).map doText) ++ ')' :: s = joinStr ',' ((ks.zip ws).map doText) ++ ')' :: t) : vs = ws ∧ s = t := by
  have hc : ¬ Digit ',' := by unfold Digit; decide
  have hp : ¬ Digit ')' := by unfold Digit; decide
  induction ks generalizing vs ws with
  | nil =>
    obtain rfl := List.length_eq_zero_iff.1 hv
    obtain rfl := List.length_eq_zero_iff.1 hw
    exact ⟨rfl, (List.cons.inj h).2⟩
  | cons k ks ih =>
    rcases vs with _ | ⟨v, vs⟩
    · simp at hv
    rcases ws with _ | ⟨w, ws⟩
    · simp at hw
    simp only [List.length_cons, Nat.add_right_cancel_iff] at hv hw
    rcases ks with _ | ⟨k', ks⟩
    · obtain rfl := List.length_eq_zero_iff.1 hv
      obtain rfl := List.length_eq_zero_iff.1 hw
      simp only [List.zip_cons_cons, List.zip_nil_left, List.map_cons, List.map_nil, joinStr, doText, List.append_assoc, List.cons_append] at h
      have h2 := List.append_cancel_left h
      obtain ⟨rfl, e⟩ := natStr_span (stops_cons hp) (stops_cons hp) (List.cons.inj h2).2
      exact ⟨rfl, (List.cons.inj e).2⟩
    · rcases vs with _ | ⟨v', vs⟩
      · simp at hv
      rcases ws with _ | ⟨w', ws⟩
      · simp at hw
      rw [List.zip_cons_cons, List.zip_cons_cons, List.map_cons, List.map_cons, List.zip_cons_cons, List.zip_cons_cons, List.map_cons, List.map_cons,
        joinStr, joinStr, List.append_assoc, List.append_assoc, List.cons_append, List.cons_append,
        show doText (k, v) = k ++ '=' :: natStr v from rfl, show doText (k, w) = k ++ '=' :: natStr w from rfl, List.append_assoc, List.append_assoc] at h
      have h2 := List.append_cancel_left h
      rw [List.cons_append, List.cons_append] at h2
      obtain ⟨rfl, e⟩ := natStr_span (stops_cons hc) (stops_cons hc) (List.cons.inj h2).2
      have e2 := (List.cons.inj e).2
      obtain ⟨e3, e4⟩ := ih (vs := v' :: vs) (ws := w' :: ws) hv hw (by simpa only [List.zip_cons_cons, List.map_cons] using e2)
      exact ⟨by rw [e3], e4⟩

/-- The characters that end a party name. -/
def Sep (c : Char) : Prop := c = '_' ∨ c = '^' ∨ c = '='

/-- The copy indices inside a name. -/
def copyPart (c : Bool) (i : Interp) : Str :=
  if c then (if i.relevant.isEmpty then [] else '^' :: '{' :: joinNat ',' i.relevant ++ ['}']) ++ '_' :: joinNat '_' i.copies else []

/-- The do-values at the end of a name. -/
def doPart (i : Interp) : Str :=
  if i.doValues.isEmpty then [] else ['|', 'd', 'o', '('] ++ joinStr ',' (i.doValues.map doText) ++ [')']

/-- The part of a name after the party. -/
def tailName (includeCopies : Bool) (i : Interp) : Str :=
  (if i.privateTrivial then [] else '_' :: natStr i.priv) ++ (copyPart includeCopies i ++ '=' :: (natStr i.outcome ++ doPart i))

theorem opName_eq (c : Bool) (i : Interp) : opName c i = i.party ++ tailName c i := by
  unfold opName tailName copyPart doPart
  simp only [List.append_assoc, List.cons_append]

theorem tailName_stops (c : Bool) (i : Interp) : Stops (fun x => ¬ Sep x) (tailName c i) := by
  intro x hx
  unfold tailName copyPart at hx
  simp only [not_not]
  unfold Sep
  by_cases h1 : i.privateTrivial = true
  · by_cases h2 : c = true
    · by_cases h3 : i.relevant.isEmpty = true
      · simp [h1, h2, h3] at hx; exact Or.inl hx.symm
      · simp [h1, h2, h3] at hx; exact Or.inr (Or.inl hx.symm)
    · simp [h1, h2] at hx; exact Or.inr (Or.inr hx.symm)
  · simp [h1] at hx; exact Or.inl hx.symm

theorem copies_eq_span {i j : Interp} {s t : Str}
    (h : ((if i.relevant.isEmpty then [] else '^' :: '{' :: joinNat ',' i.relevant ++ ['}']) ++ '_' :: joinNat '_' i.copies) ++ '=' :: s
       = ((if j.relevant.isEmpty then [] else '^' :: '{' :: joinNat ',' j.relevant ++ ['}']) ++ '_' :: joinNat '_' j.copies) ++ '=' :: t) :
    i.copies = j.copies ∧ s = t := by
  have hd : ∀ c ∈ ['=', '_', ',', '}'], ¬ Digit c := by
    intro c hc
    simp only [List.mem_cons, List.not_mem_nil, or_false] at hc
    unfold Digit
    rcases hc with rfl | rfl | rfl | rfl <;> decide
  have key : ∀ {u v : Str}, '_' :: joinNat '_' i.copies ++ '=' :: u = '_' :: joinNat '_' j.copies ++ '=' :: v → i.copies = j.copies ∧ u = v := by
    intro u v huv
    have h1 := (List.cons.inj huv).2
    have st : ∀ w : Str, Stops (fun c => Digit c ∨ c = '_') ('=' :: w) := by
      intro w
      refine stops_cons ?_
      rintro (e | e)
      · exact hd '=' (by simp) e
      · revert e; decide
    obtain ⟨e1, e2⟩ := joinNat_span (hd '_' (by simp)) (st u) (st v) h1
    exact ⟨e1, (List.cons.inj e2).2⟩
  by_cases hi : i.relevant.isEmpty = true <;> by_cases hj : j.relevant.isEmpty = true
  · simp only [hi, hj, if_true, List.nil_append] at h
    exact key h
  · exfalso
    simp [hi, hj] at h
  · exfalso
    simp [hi, hj] at h
  · simp only [hi, hj, Bool.false_eq_true, if_false] at h
    have h1 : joinNat ',' i.relevant ++ '}' :: ('_' :: joinNat '_' i.copies ++ '=' :: s) = joinNat ',' j.relevant ++ '}' :: ('_' :: joinNat '_' j.copies ++ '=' :: t) := by
      simpa only [List.append_assoc, List.cons_append, List.nil_append, List.cons.injEq, true_and] using h
    have st : ∀ w : Str, Stops (fun c => Digit c ∨ c = ',') ('}' :: w) := by
      intro w
      refine stops_cons ?_
      rintro (e | e)
      · exact hd '}' (by simp) e
      · revert e; decide
    obtain ⟨-, e2⟩ := joinNat_span (hd ',' (by simp)) (st _) (st _) h1
    exact key (List.cons.inj e2).2

theorem not_digit {c : Char} (h : c ∈ ['=', '_', '^', '|', ',', '}', ')', ' ', ']', '>', '*']) : ¬ Digit c := by
  simp only [List.mem_cons, List.not_mem_nil, or_false] at h
  unfold Digit
  rcases h with rfl | rfl | rfl | rfl | rfl | rfl | rfl | rfl | rfl | rfl | rfl <;> decide

theorem copyPart_stops (c : Bool) (i : Interp) (w : Str) : Stops Digit (copyPart c i ++ '=' :: w) := by
  intro x hx
  unfold copyPart at hx
  by_cases h2 : c = true
  · by_cases h3 : i.relevant.isEmpty = true
    · simp [h2, h3] at hx; exact hx ▸ not_digit (by simp)
    · simp [h2, h3] at hx; exact hx ▸ not_digit (by simp)
  · simp [h2] at hx; exact hx ▸ not_digit (by simp)

theorem doPart_stops (i : Interp) {s : Str} (hs : Stops (fun x => Digit x ∨ x = '|') s) : Stops Digit (doPart i ++ s) := by
  intro x hx
  unfold doPart at hx
  by_cases hb : i.doValues.isEmpty = true
  · simp only [hb, if_true, List.nil_append] at hx
    exact fun e => hs x hx (Or.inl e)
  · simp [hb] at hx; exact hx ▸ not_digit (by simp)

/-- What two operator names that coincide have in common. -/
theorem opName_span {c : Bool} {i j : Interp} {ki kj : List Str} {vi vj : List Nat} {s t : Str}
    (hdi : i.doValues = ki.zip vi) (hdj : j.doValues = kj.zip vj) (hli : vi.length = ki.length) (hlj : vj.length = kj.length)
    (hi : ∀ x ∈ i.party, ¬ Sep x) (hj : ∀ x ∈ j.party, ¬ Sep x)
    (hsame : i.party = j.party → i.privateTrivial = j.privateTrivial ∧ ki = kj)
    (hs : Stops (fun x => Digit x ∨ x = '|') s) (ht : Stops (fun x => Digit x ∨ x = '|') t)
    (h : opName c i ++ s = opName c j ++ t) :
    i.party = j.party ∧ (i.privateTrivial = false → i.priv = j.priv) ∧ (c = true → i.copies = j.copies) ∧ i.outcome = j.outcome ∧ vi = vj ∧ s = t := by
  have hstop : ∀ (i : Interp) (s : Str), Stops (fun x => ¬ Sep x) (tailName c i ++ s) := by
    intro i s x hx
    refine tailName_stops c i x ?_
    have hne : tailName c i ≠ [] := by
      unfold tailName
      simp
    rw [List.head?_append_of_ne_nil _ hne] at hx
    exact hx
  rw [opName_eq, opName_eq, List.append_assoc, List.append_assoc] at h
  obtain ⟨hp, h⟩ := span_inj hi hj (hstop i s) (hstop j t) h
  obtain ⟨htr, rfl⟩ := hsame hp
  refine ⟨hp, ?_⟩
  have hrest : (i.privateTrivial = false → i.priv = j.priv) ∧
      copyPart c i ++ '=' :: (natStr i.outcome ++ (doPart i ++ s)) = copyPart c j ++ '=' :: (natStr j.outcome ++ (doPart j ++ t)) := by
    unfold tailName at h
    by_cases hb : i.privateTrivial = true
    · rw [← htr] at h
      simp only [hb, if_true, List.nil_append, List.append_assoc, List.cons_append] at h
      exact ⟨fun e => by simp [hb] at e, h⟩
    · rw [← htr] at h
      simp only [hb, Bool.false_eq_true, if_false, List.append_assoc, List.cons_append, List.cons.injEq, true_and] at h
      obtain ⟨e1, e2⟩ := natStr_span (copyPart_stops c i _) (copyPart_stops c j _) h
      exact ⟨fun _ => e1, e2⟩
  refine ⟨hrest.1, ?_⟩
  have h2 := hrest.2
  have h3 : (c = true → i.copies = j.copies) ∧ natStr i.outcome ++ (doPart i ++ s) = natStr j.outcome ++ (doPart j ++ t) := by
    unfold copyPart at h2
    by_cases hc : c = true
    · simp only [hc, if_true] at h2
      obtain ⟨e1, e2⟩ := copies_eq_span h2
      exact ⟨fun _ => e1, e2⟩
    · simp only [hc, Bool.false_eq_true, if_false, List.nil_append] at h2
      exact ⟨fun e => absurd e hc, (List.cons.inj h2).2⟩
  refine ⟨h3.1, ?_⟩
  obtain ⟨e1, e2⟩ := natStr_span (doPart_stops i hs) (doPart_stops j ht) h3.2
  refine ⟨e1, ?_⟩
  unfold doPart at e2
  rw [hdi, hdj] at e2
  rcases hk : ki with _ | ⟨k, ks⟩
  · subst hk
    obtain rfl := List.length_eq_zero_iff.1 hli
    obtain rfl := List.length_eq_zero_iff.1 hlj
    exact ⟨rfl, by simpa using e2⟩
  · have hne : ∀ v : List Nat, v.length = ki.length → (ki.zip v).isEmpty = false := by
      intro v hv
      rw [hk] at hv ⊢
      cases v with
      | nil => simp at hv
      | cons a v => rfl
    rw [hne _ hli, hne _ hlj] at e2
    simp only [Bool.false_eq_true, if_false, List.append_assoc] at e2
    have e3 := List.append_cancel_left e2
    exact doText_span ki hli hlj e3

end Verif.Names

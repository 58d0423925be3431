import Verif.SdpNames.Text
import Verif.SdpSearch.Props
/-!
C67: the names of the moments of a semidefinite program.
-/
namespace Verif.SdpNames
open Verif.Common Verif.Canon Verif.Scenario Verif.Moment Verif.SdpRepr Verif.SdpEnd Verif.Text Verif.Names
open Verif.State (Dict Mon)
open Verif.EndToEnd (Input)
open Verif.Sanitise (naming NamesOk constantName joinChars_head interps_facts)
open Verif.SdpSearch (NamesDiffer)

variable {I : Input} {names : List Str} {cols : List (List Nat)} {ch : Choice} {name : Atom → String} {B : Built}

/-! ### Characters -/

theorem joinChars_mem {l : List Str} {c : Char} (h : c ∈ joinChars l) : c = '1' ∨ c = '*' ∨ c = '^' ∨ Digit c ∨ ∃ x ∈ l, c ∈ x := by
  unfold joinChars at h
  split at h
  · left; simpa using h
  · rw [intercalate_eq] at h
    rcases mem_joinStr h with h | ⟨w, hw, h⟩
    · exact .inr (.inl h)
    · obtain ⟨t, ht, rfl⟩ := List.mem_map.1 hw
      obtain ⟨a, ha, rfl⟩ := List.mem_map.1 ht
      have ha := mem_dedupB.1 ha
      dsimp only at h
      split at h
      · rcases List.mem_append.1 h with h | h
        · exact .inr (.inr (.inr (.inr ⟨a, ha, h⟩)))
        · rcases List.mem_cons.1 h with h | h
          · exact .inr (.inr (.inl h))
          · exact .inr (.inr (.inr (.inl (natStr_digit _ _ h))))
      · exact .inr (.inr (.inr (.inr ⟨a, ha, h⟩)))

theorem joinChars_contains {l : List Str} {c : Char} {x : Str} (hx : x ∈ l) (hc : c ∈ x) : c ∈ joinChars l := by
  unfold joinChars
  rw [if_neg (by intro h; rw [List.isEmpty_iff.1 h] at hx; cases hx), intercalate_eq]
  apply mem_joinStr_of_mem (w := if l.count x > 1 then x ++ '^' :: natStr (l.count x) else x)
  · exact List.mem_map.2 ⟨(x, l.count x), List.mem_map.2 ⟨x, mem_dedupB.2 hx, rfl⟩, rfl⟩
  · split <;> simp [hc]

theorem nameWith_eq_sign (h : NamesOk I names) (f com : Bool) {a : Atom} (ha : InRange I a) (hne : a ≠ []) (h0 : 0 ∉ a) : '=' ∈ nameWith I names f com a := by
  have hs := nameWith_some h f com h0
  unfold momentName at hs
  rcases hi : (SdpEnd.operators I a).mapM (interpret I.scenario (naming I names)) with _ | is
  · rw [hi] at hs; simp at hs
  rw [hi, Option.map_some, Option.some.injEq] at hs
  have hF := mapM_some_forall2 hi
  have hops : SdpEnd.operators I a ≠ [] := by rw [operators_shift h0]; exact Sanitise.operators_ne (shift_lt ha h0) (shift_ne hne)
  have his : is ≠ [] := by
    rintro rfl
    have := hF.length_eq
    simp at this
    exact hops this
  obtain ⟨i, hi⟩ := List.exists_mem_of_ne_nil _ his
  rw [← hs]
  have hop : ∀ c d, '=' ∈ opName c { i with doValues := d } := by
    intro c d
    unfold opName
    simp
  have : ∀ list : List Str, (∃ w ∈ list, '=' ∈ w) → '=' ∈ (if com then 'P' :: '[' :: joinStr ' ' list ++ [']'] else '<' :: joinStr ' ' list ++ ['>']) := by
    rintro list ⟨w, hw, h⟩
    have := mem_joinStr_of_mem (sep := ' ') hw h
    split <;> simp [this]
  unfold atomName
  apply this
  split
  · exact ⟨_, List.mem_map.2 ⟨i, hi, rfl⟩, hop _ _⟩
  · exact ⟨_, List.mem_map.2 ⟨i, hi, rfl⟩, hop _ i.doValues⟩

theorem joinNat_mem {sep c : Char} {l : List Nat} (h : c ∈ joinNat sep l) : c = sep ∨ Digit c := by
  induction l with
  | nil => simp [joinNat] at h
  | cons a l ih =>
    cases l with
    | nil => exact .inr (natStr_digit _ _ (by simpa [joinNat] using h))
    | cons b l =>
      rw [joinNat, List.mem_append, List.mem_cons] at h
      rcases h with h | h | h
      · exact .inr (natStr_digit _ _ h)
      · exact .inl h
      · exact ih h

theorem divided_mem {c : Char} {l : List Nat} (h : c ∈ divided l) : c = ',' ∨ Digit c := by
  unfold divided at h
  split at h
  · obtain ⟨x, hx, h⟩ := List.mem_flatten.1 h
    obtain ⟨n, -, rfl⟩ := List.mem_map.1 hx
    exact .inr (natStr_digit _ _ h)
  · exact joinNat_mem h

/-- Legacy names do not contain the equality sign. -/
theorem legacy_no_eq_sign (h : NamesOk I names) {a : Atom} (h0 : 0 ∉ a) : '=' ∉ legacyText I names a := by
  have hn : ∀ n ∈ names, '=' ∉ n := fun n hn => h.avoid n hn '=' (by simp)
  have hd : ¬ Digit '=' := not_digit (by simp)
  intro hm
  unfold legacyText at hm
  split at hm
  · simp at hm
  split at hm
  · simp at hm
  split at hm
  · unfold rawName at hm
    have names_ok : ∀ k, '=' ∉ names.getD k [] := by
      intro k
      rw [List.getD_eq_getElem?_getD]
      rcases hk : names[k]? with _ | n
      · simp
      · exact hn n (List.mem_of_getElem? hk)
    have div_ok : ∀ l, '=' ∉ divided l := by
      intro l hm
      rcases divided_mem hm with hm | hm
      · simp at hm
      · exact hd hm
    simp only [List.mem_cons, List.mem_append] at hm
    rcases hm with (((hm | hm) | (hm | hm)) | (hm | hm)) | hm
    · simp at hm
    · obtain ⟨l, hl, hm⟩ := List.mem_flatten.1 hm
      obtain ⟨r, -, rfl⟩ := List.mem_map.1 hl
      exact names_ok _ hm
    · simp at hm
    · exact div_ok _ hm
    · simp at hm
    · exact div_ok _ hm
    · simp at hm
  · rw [List.mem_append, List.mem_cons] at hm
    rcases hm with (hm | hm) | hm
    · simp at hm
    · rcases mem_joinStr hm with hm | ⟨w, hw, hm⟩
      · simp at hm
      · obtain ⟨op, hop, rfl⟩ := List.mem_map.1 hw
        unfold legacyName at hm
        rcases hi : interpret I.scenario (naming I names) op with _ | i
        · rw [hi] at hm; simp at hm
        · rw [hi] at hm
          have hp := (interps_facts h (operators_valid' h0) (iw := ((SdpEnd.operators I a).filterMap (interpret I.scenario (naming I names)))) (by
            have : ∀ l : List Op, (∀ op ∈ l, Valid I.scenario op) → List.Forall₂ (fun a b => interpret I.scenario (naming I names) a = some b) l (l.filterMap (interpret I.scenario (naming I names))) := by
              intro l hl
              induction l with
              | nil => exact .nil
              | cons x l ih =>
                obtain ⟨i, -, hi, -⟩ := interpret_some h.fits (hl x (by simp))
                rw [List.filterMap_cons_some hi]
                exact .cons hi (ih fun y hy => hl y (by simp [hy]))
            exact this _ (operators_valid' h0)) i (List.mem_filterMap.2 ⟨op, hop, hi⟩)).1
          simp only [Option.map_some, Option.getD_some, oldName, List.mem_append, List.mem_cons] at hm
          rcases hm with (((hm | (hm | hm)) | (hm | hm)) | (hm | hm))
          · exact hn _ hp hm
          · simp at hm
          · rcases joinNat_mem hm with hm | hm
            · simp at hm
            · exact hd hm
          · simp at hm
          · split at hm
            · simp at hm
            · exact hd (natStr_digit _ _ hm)
          · simp at hm
          · exact hd (natStr_digit _ _ hm)
    · simp at hm

/-- Legacy names start with one of two letters. -/
theorem legacy_head {a : Atom} (hne : a ≠ []) (h0 : 0 ∉ a) : ∃ c t, legacyText I names a = c :: t ∧ (c = 'p' ∨ c = '<') := by
  unfold legacyText
  rw [if_neg (by simpa using hne), if_neg (by simpa [isZero] using h0)]
  split
  · exact ⟨'p', _, rfl, .inl rfl⟩
  · exact ⟨'<', _, rfl, .inr rfl⟩

theorem named_head (hN : NamesOk I names) {a : Atom} (h : Plain I a) {t : Str} (ht : AtomNamed I names a t) : ∃ c u, t = c :: u ∧ (c = 'P' ∨ c = '<') := by
  obtain ⟨f, com, rfl, -⟩ := named_form h ht
  obtain ⟨u, e, -⟩ := nameWith_form hN f com h.nonzero
  rw [e]
  cases com
  · exact ⟨'<', _, rfl, .inr rfl⟩
  · exact ⟨'P', _, rfl, .inl rfl⟩

/-! ### The table -/

/-- The table maps the name of every moment to the moment. -/
structure Inv (I : Input) (names : List Str) (s : Table) : Prop where
  proper : ∀ e ∈ s.created, ProperMoment I e.1
  named : ∀ e ∈ s.created, MomentNamed I names e.1 e.2
  text : ∀ e ∈ s.created, s.dict.get e.2 = some e.1
  zero : [[0]] ∈ s.created.map Prod.fst
  one : [] ∈ s.created.map Prod.fst
  constant : s.dict.get constantName = some []

theorem zero_named {t : Str} : MomentNamed I names [[0]] t ↔ t = ['0'] := by
  constructor
  · rintro ⟨l, hF, rfl⟩
    cases hF with
    | cons h h' =>
      cases h' with
      | nil =>
        cases h with
        | created => exact (by decide : joinChars [['0']] = ['0'])
        | adjoint h => simp [allCommuting, notcomm_self] at h
  · rintro rfl
    exact ⟨[['0']], .cons .created .nil, by decide⟩

theorem one_named {t : Str} : MomentNamed I names [] t ↔ t = ['1'] := by
  constructor
  · rintro ⟨l, hF, rfl⟩
    cases hF
    rfl
  · rintro rfl
    exact ⟨[], .nil, rfl⟩

theorem start_inv : Inv I names start where
  proper := by
    intro e he
    simp only [start, List.mem_cons, List.not_mem_nil, or_false] at he
    rcases he with rfl | rfl
    · exact ⟨.inl rfl, by simp⟩
    · exact ⟨.inr (by simp), by simp⟩
  named := by
    intro e he
    simp only [start, List.mem_cons, List.not_mem_nil, or_false] at he
    rcases he with rfl | rfl
    · exact zero_named.2 rfl
    · exact one_named.2 rfl
  text := by
    intro e he
    simp only [start, List.mem_cons, List.not_mem_nil, or_false] at he
    rcases he with rfl | rfl <;> rfl
  zero := by simp [start]
  one := by simp [start]
  constant := by rfl

/-- The legacy name of a moment that is neither one nor zero. -/
theorem momentLegacy_facts (hN : NamesOk I names) {m : Mon} {l : Str} (hm : ∀ a ∈ m, Plain I a) (hne : m ≠ []) (h : MomentLegacy I names ch m l) :
    '=' ∉ l ∧ ∃ c t, l = c :: t ∧ (c = 'p' ∨ c = '<') := by
  obtain ⟨texts, hF, rfl⟩ := h
  have hall : ∀ x ∈ texts, '=' ∉ x ∧ ∃ c t, x = c :: t ∧ (c = 'p' ∨ c = '<') := by
    intro x hx
    obtain ⟨a, ha, hl⟩ := Sanitise.forall2_mem_right hF hx
    cases hl with
    | own => exact ⟨legacy_no_eq_sign hN (hm a ha).nonzero, legacy_head (hm a ha).ne (hm a ha).nonzero⟩
    | original hb h0 => exact ⟨legacy_no_eq_sign hN h0, legacy_head hb h0⟩
  have htn : texts ≠ [] := by
    rintro rfl
    cases hF
    exact hne rfl
  refine ⟨?_, joinChars_head htn _ fun x hx => (hall x hx).2⟩
  intro h
  rcases joinChars_mem h with h | h | h | h | ⟨x, hx, h⟩
  · simp at h
  · simp at h
  · simp at h
  · exact not_digit (by simp) h
  · exact (hall x hx).1 h

theorem momentNamed_facts (hN : NamesOk I names) {m : Mon} {t : Str} (hm : ∀ a ∈ m, Plain I a) (hne : m ≠ []) (h : MomentNamed I names m t) :
    '=' ∈ t ∧ ∃ c u, t = c :: u ∧ (c = 'P' ∨ c = '<') := by
  obtain ⟨texts, hF, rfl⟩ := h
  have htn : texts ≠ [] := by
    rintro rfl
    cases hF
    exact hne rfl
  have hall : ∀ x ∈ texts, '=' ∈ x ∧ ∃ c u, x = c :: u ∧ (c = 'P' ∨ c = '<') := by
    intro x hx
    obtain ⟨a, ha, hl⟩ := Sanitise.forall2_mem_right hF hx
    refine ⟨?_, named_head hN (hm a ha) hl⟩
    obtain ⟨f, com, rfl, -⟩ := named_form (hm a ha) hl
    exact nameWith_eq_sign hN f com (hm a ha).repr.range (hm a ha).ne (hm a ha).nonzero
  obtain ⟨x, hx⟩ := List.exists_mem_of_ne_nil _ htn
  exact ⟨joinChars_contains hx (hall x hx).1, joinChars_head htn _ fun x hx => (hall x hx).2⟩

theorem register_inv (hN : NamesOk I names) {s : Table} (hi : Inv I names s) {m : Mon} {t l : Str} (hm : ProperMoment I m) (ht : MomentNamed I names m t) (hl : MomentLegacy I names ch m l) :
    Inv I names (register s m t l) ∧ (∀ e ∈ s.created, e ∈ (register s m t l).created) ∧ m ∈ (register s m t l).created.map Prod.fst := by
  unfold register
  split
  · rename_i h
    exact ⟨hi, fun e he => he, h⟩
  · rename_i hmem
    have hplain : ∀ a ∈ m, Plain I a := by
      rcases hm.atoms with h | h
      · rw [h] at hmem
        exact absurd hi.zero hmem
      · exact h
    have hne : m ≠ [] := by
      intro h
      rw [h] at hmem
      exact hmem hi.one
    obtain ⟨l1, c, u, l2, l3⟩ := momentLegacy_facts hN hplain hne hl
    obtain ⟨t1, c', u', t2, t3⟩ := momentNamed_facts hN hplain hne ht
    have hget : ∀ x, Dict.get (Dict.set (Dict.set s.dict t m) l m) x = if l = x then some m else if t = x then some m else s.dict.get x := by
      intro x
      rw [State.get_set, State.get_set]
    have hkeep : ∀ e ∈ s.created, e.2 ≠ t ∧ e.2 ≠ l := by
      intro e he
      have hp := hi.proper e he
      have hn := hi.named e he
      refine ⟨?_, ?_⟩
      · intro h
        rw [h] at hn
        have := momentNamed_inj hN hp hm hn ht
        exact hmem (List.mem_map.2 ⟨e, he, this⟩)
      · intro h
        by_cases h0 : e.1 = []
        · rw [h0, one_named, h, l2] at hn
          have := (List.cons.inj hn).1
          rcases l3 with rfl | rfl <;> simp at this
        rcases hp.atoms with h1 | h1
        · rw [h1, zero_named, h, l2] at hn
          have := (List.cons.inj hn).1
          rcases l3 with rfl | rfl <;> simp at this
        · have := (momentNamed_facts hN h1 h0 hn).1
          rw [h] at this
          exact l1 this
    refine ⟨⟨?_, ?_, ?_, ?_, ?_, ?_⟩, fun e he => by simp [he], by simp⟩
    · intro e he
      rcases List.mem_append.1 he with he | he
      · exact hi.proper e he
      · rw [List.mem_singleton.1 he]; exact hm
    · intro e he
      rcases List.mem_append.1 he with he | he
      · exact hi.named e he
      · rw [List.mem_singleton.1 he]; exact ht
    · intro e he
      rcases List.mem_append.1 he with he | he
      · obtain ⟨k1, k2⟩ := hkeep e he
        show Dict.get (Dict.set (Dict.set s.dict t m) l m) e.2 = some e.1
        rw [hget, if_neg (Ne.symm k2), if_neg (Ne.symm k1)]
        exact hi.text e he
      · rw [List.mem_singleton.1 he]
        show Dict.get (Dict.set (Dict.set s.dict t m) l m) t = some m
        rw [hget]
        split
        · rfl
        · rw [if_pos rfl]
    · have := hi.zero
      simp only [List.map_append, List.mem_append]
      exact .inl this
    · have := hi.one
      simp only [List.map_append, List.mem_append]
      exact .inl this
    · show Dict.get (Dict.set (Dict.set s.dict t m) l m) constantName = some []
      rw [hget, if_neg, if_neg]
      · exact hi.constant
      · intro e
        rw [t2] at e
        have := congrArg List.head? e
        rcases t3 with rfl | rfl <;> exact absurd (Option.some.inj this) (by decide)
      · intro e
        rw [l2] at e
        have := congrArg List.head? e
        rcases l3 with rfl | rfl <;> exact absurd (Option.some.inj this) (by decide)

theorem step_inv (hN : NamesOk I names) (hS : copiesOf I.scenario ≤ 254) (hch : UsualChoice ch I) {s s' : Table} (hi : Inv I names s) (h : Step I names ch name s s') :
    Inv I names s' ∧ ∀ e ∈ s.created, e ∈ s'.created := by
  cases h with
  | word hw hr ht hl =>
    obtain ⟨h1, h2, -⟩ := register_inv hN hi (momentOf_proper hch name hw hr fun h0 => capacity_word hS hw h0) ht hl
    exact ⟨h1, h2⟩
  | combine ha ht hl =>
    obtain ⟨h1, h2, -⟩ := register_inv hN hi (monFromAtoms_proper hch _ rfl (fun a h => by
      obtain ⟨m, hm, ham⟩ := ha a h
      obtain ⟨e, he, rfl⟩ := List.mem_map.1 hm
      rcases (hi.proper e he).atoms with h | h
      · rw [h] at ham
        rw [List.mem_singleton.1 ham]
        exact zero_representative
      · exact (h a ham).repr) rfl) ht hl
    exact ⟨h1, h2⟩

theorem later_inv (hN : NamesOk I names) (hS : copiesOf I.scenario ≤ 254) (hch : UsualChoice ch I) {s s' : Table} (hi : Inv I names s) (h : Later I names ch name s s') :
    Inv I names s' ∧ ∀ e ∈ s.created, e ∈ s'.created := by
  induction h with
  | refl => exact ⟨hi, fun e he => he⟩
  | tail _ h ih =>
    obtain ⟨h1, h2⟩ := step_inv hN hS hch ih.1 h
    exact ⟨h1, fun e he => h2 e (ih.2 e he)⟩

/-! ### C67 -/

/-- **C67, names are read back.** The name of a moment that has been made denotes this moment, now and later. -/
theorem C67_name_reads_back (hN : NamesOk I names) (hS : copiesOf I.scenario ≤ 254) (hch : UsualChoice ch I) {s s' : Table} (hr : Reachable I names ch name s) (hl : Later I names ch name s s')
    {m : Mon} {t : Str} (hm : (m, t) ∈ s.created) (split : Str → Option Mon) : readName split s' t = some m := by
  obtain ⟨h1, -⟩ := later_inv hN hS hch start_inv hr
  obtain ⟨h2, h3⟩ := later_inv hN hS hch h1 hl
  have he := h3 _ hm
  unfold readName
  split
  · rename_i e
    have hn := h2.named _ he
    dsimp only at hn
    rw [e] at hn
    obtain ⟨e0, he0, e1⟩ := List.mem_map.1 h2.one
    have hp := h2.proper _ he0
    rw [e1] at hp
    exact congrArg some (momentNamed_inj hN (h2.proper _ he) hp hn (one_named.2 rfl)).symm
  · rw [h2.text _ he]

/-- **C67, names differ.** Different moments of the table have different names. -/
theorem C67_names_differ (hN : NamesOk I names) (hS : copiesOf I.scenario ≤ 254) (hch : UsualChoice ch I) {s : Table} (hr : Reachable I names ch name s) {m m' : Mon} {t : Str}
    (hm : (m, t) ∈ s.created) (hm' : (m', t) ∈ s.created) : m = m' := by
  have h1 := C67_name_reads_back hN hS hch hr .refl hm fun _ => none
  rw [C67_name_reads_back hN hS hch hr .refl hm' fun _ => none] at h1
  exact (Option.some.inj h1).symm

/-- **C67, the moments of the program.** Two moments of the program which have a name in common, whenever and in whatever way each of them was made, are the same. -/
theorem C67_moments_of_the_program (hN : NamesOk I names) (hV : Setup I cols ch name B) (hch : UsualChoice ch I) {m m' : Mon} (hm : m ∈ B.env.moments) (hm' : m' ∈ B.env.moments) {t : Str}
    (h : MomentNamed I names m t) (h' : MomentNamed I names m' t) : m = m' :=
  momentNamed_inj hN (moments_proper hV hch m hm) (moments_proper hV hch m' hm') h h'

/-- The names which the program gives to moments and to the constant term in certificates. -/
def ProgramNames (I : Input) (names : List Str) (B : Built) (nameOf : Option Mon → String) : Prop :=
  (∀ m ∈ B.env.moments, ∃ t, MomentNamed I names m t ∧ nameOf (some m) = String.ofList t) ∧ nameOf none = String.ofList constantName

/-- **C67, certificates.** The names in a certificate determine the moments: no two of them agree and none is the name of the constant term. -/
theorem C67_certificate_names (hN : NamesOk I names) (hV : Setup I cols ch name B) (hch : UsualChoice ch I) {nameOf : Option Mon → String} (h : ProgramNames I names B nameOf) :
    NamesDiffer B nameOf := by
  have inj : ∀ {t t' : Str}, String.ofList t = String.ofList t' → t = t' := fun e => by simpa using congrArg String.toList e
  have const : ∀ m ∈ B.env.moments, nameOf (some m) ≠ nameOf none := by
    intro m hm e
    obtain ⟨t, h1, h2⟩ := h.1 m hm
    rw [h.2, h2] at e
    have e := inj e
    by_cases h0 : m = []
    · rw [h0, one_named, e] at h1
      revert h1
      decide
    rcases (moments_proper hV hch m hm).atoms with h3 | h3
    · rw [h3, zero_named, e] at h1
      revert h1
      decide
    · obtain ⟨-, c, u, h4, h5⟩ := momentNamed_facts hN h3 h0 h1
      rw [e] at h4
      have := congrArg List.head? h4
      rcases h5 with rfl | rfl <;> exact absurd (Option.some.inj this) (by decide)
  intro y z hy hz e
  cases y with
  | none =>
    cases z with
    | none => rfl
    | some m => exact absurd e.symm (const m (hz m rfl))
  | some m =>
    cases z with
    | none => exact absurd e (const m (hy m rfl))
    | some m' =>
      obtain ⟨t, h1, h2⟩ := h.1 m (hy m rfl)
      obtain ⟨t', h3, h4⟩ := h.1 m' (hz m' rfl)
      rw [h2, h4] at e
      rw [← inj e] at h3
      rw [C67_moments_of_the_program hN hV hch (hy m rfl) (hz m' rfl) h1 h3]

end Verif.SdpNames

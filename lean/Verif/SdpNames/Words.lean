import Verif.SdpNames.Model
import Verif.SdpNames.Reduced
/-!
The atoms of the moments of the semidefinite program are the first words of their orbits.
-/
namespace Verif.SdpNames
open Verif.Common Verif.Canon Verif.Canon.Spec Verif.Scenario Verif.Components Verif.Moment Verif.MomentMatrix Verif.SymMM Verif.SdpRepr Verif.SdpEnd Verif.Normalization
open Verif.State (Dict Mon)
open Verif.EndToEnd (Input)

variable {I : Input}

/-- A word of operators that cannot be simplified and is the first of its orbit. -/
structure Representative (I : Input) (a : Atom) : Prop where
  range : InRange I a
  reduced : Reduced (notcomm I) (orthomat I) a
  least : IsLeast (notcomm I) (symmetries I) a a

theorem usual_history {m : Mem} (h : UsualMem I m) : ∃ history : List SdpRepr.Call, (∀ c ∈ history, OkCall (nOps I) (notcomm I) (orthomat I) c) ∧
    m = after (notcomm I) (orthomat I) (allCommute I) (symmetries I) history := by
  obtain ⟨hist, h1, h2⟩ := h
  refine ⟨hist, fun c hc => ?_, h2⟩
  have := h1 c hc
  cases c with
  | canon f w => trivial
  | repr f w => exact this

theorem usual_least {m : Mem} (h : UsualMem I m) (flag : Bool) {w : List Nat} (hw : InRange I w) (hr : Reduced (notcomm I) (orthomat I) w) :
    IsLeast (notcomm I) (symmetries I) w (reprMemo (notcomm I) (orthomat I) (allCommute I) (symmetries I) m flag w).2 := by
  obtain ⟨hist, h1, rfl⟩ := usual_history h
  exact C47_representative_is_least (operatorList I) (symData I) (fun h => (allCommute_iff I).1 h) hist h1 flag w hw hr

theorem representative_of_least {w v : List Nat} (hw : InRange I w) (hr : Reduced (notcomm I) (orthomat I) w) (h : IsLeast (notcomm I) (symmetries I) w v) : Representative I v where
  range := sameOrbit_lt (symData I) hw h.1
  reduced := by
    obtain ⟨r, hr', e⟩ := h.1
    exact reduced_commEq (reduced_mapW (symData I) hr' hw hr) e
  least := isLeast_congr (symData I) hw h.1 h

theorem usualAtom_least {w : List Nat} {a : Atom} (h : UsualAtom I w a) (hw : InRange I w) (hr : Reduced (notcomm I) (orthomat I) w) : IsLeast (notcomm I) (symmetries I) w a := by
  induction h with
  | direct h => exact usual_least h false hw hr
  | stored h _ ih =>
    have h1 := usual_least h false hw hr
    have h2 := representative_of_least hw hr h1
    have h3 := ih h2.range h2.reduced
    have h4 := isLeast_congr (symData I) hw h1.1 h1
    rw [isLeast_unique h3 h4]
    exact h1

theorem dagger_representative {ch : Choice} (hch : UsualChoice ch I) {a : Atom} (h : Representative I a) : Representative I (ch.dagger a) := by
  obtain ⟨m, hm, e⟩ := hch.dagger a h.range h.reduced
  rw [e]
  unfold conjugate
  split
  · exact h
  · have h1 : InRange I a.reverse := inRange_reverse.2 h.range
    have h2 := Positivity.reduced_reverse (operatorList I).nc_symm h.reduced
    exact representative_of_least h1 h2 (usual_least hm true h1 h2)

/-! ### The words of the moment matrix -/

theorem canonical_reduced {w : List Nat} (hw : InRange I w) :
    Reduced (notcomm I) (orthomat I) (toCanonical (notcomm I) (orthomat I) (allCommute I) false w) := by
  rw [canonC_eq (fun h => (allCommute_iff I).1 h)]
  exact reduced_canonical (operatorList I) hw

theorem hash_reduced {m1 m2 h : List Nat} (h1 : InRange I m1) (h2 : InRange I m2) (e : monHash (notcomm I) (orthomat I) (allCommute I) m1 m2 = some h) :
    Reduced (notcomm I) (orthomat I) h ∧ InRange I h := by
  have hd : InRange I (dotMon m1 m2) := inRange_append.2 ⟨inRange_reverse.2 h1, h2⟩
  have hr := canonical_reduced hd
  have hin : InRange I (toCanonical (notcomm I) (orthomat I) (allCommute I) false (dotMon m1 m2)) := (opEq_range (nOps_pos I) (canonical_opEq false hd)).1 hd
  unfold monHash at e
  dsimp only at e
  split at e
  · cases e
  · split at e
    · rw [← Option.some.inj e]
      unfold lexMin
      split
      · exact ⟨hr, hin⟩
      · have h3 := Positivity.reduced_reverse (operatorList I).nc_symm hr
        have h4 := inRange_reverse.2 hin
        rw [canonAny h3 (fun h => (allCommute_iff I).1 h)]
        have h5 := canon_sound (notcomm I) (toCanonical (notcomm I) (orthomat I) (allCommute I) false (dotMon m1 m2)).reverse
        exact ⟨reduced_commEq h3 h5, fun x hx => h4 x (h5.perm.mem_iff.2 hx)⟩
    · rw [← Option.some.inj e]
      exact ⟨hr, hin⟩

theorem table_reduced {cols : List (List Nat)} (hc : ∀ m ∈ cols, InRange I m) :
    ∀ t ∈ (momentMatrix (notcomm I) (orthomat I) (allCommute I) cols).tbl, Reduced (notcomm I) (orthomat I) t.1 ∧ InRange I t.1 := by
  have hD : ∀ i, InRange I (cols.getD i []) := by
    intro i
    rcases h : cols[i]? with _ | m
    · rw [List.getD_eq_getElem?_getD, h]
      intro x hx
      simp at hx
    · rw [List.getD_eq_getElem?_getD, h]
      exact hc m (List.mem_of_getElem? h)
  have gen : ∀ (l : List (Nat × Nat)) (s : MomentMatrix.St), (∀ t ∈ s.tbl, Reduced (notcomm I) (orthomat I) t.1 ∧ InRange I t.1) →
      ∀ t ∈ (l.foldl (MomentMatrix.step (notcomm I) (orthomat I) (allCommute I) cols) s).tbl, Reduced (notcomm I) (orthomat I) t.1 ∧ InRange I t.1 := by
    intro l
    induction l with
    | nil => intro s hs; exact hs
    | cons ij l ih =>
      intro s hs
      apply ih
      unfold MomentMatrix.step
      split
      · exact hs
      · rename_i h e
        split
        · exact hs
        · intro t ht
          rcases List.mem_append.1 ht with ht | ht
          · exact hs t ht
          · rw [List.mem_singleton.1 ht]
            exact hash_reduced (hD _) (hD _) e
  exact gen _ _ (by intro t ht; cases ht)

/-- The factors of a word that cannot be simplified cannot be simplified either. -/
theorem factors_reduced {w : List Nat} (hw : InRange I w) (h0 : 0 ∉ w) (hcap : EndToEnd.ClassicalModel.Capacity I.scenario (w.map (· - 1))) (hr : Reduced (notcomm I) (orthomat I) w) :
    ∀ f ∈ factorsOf I w, InRange I f ∧ f ≠ [] ∧ 0 ∉ f ∧ Reduced (notcomm I) (orthomat I) f := by
  by_cases hne : w = []
  · subst hne
    have : factorize I.scenario [] = [[]] := by simp [factorize]
    intro f hf
    simp [factorsOf, this] at hf
  have hback : (w.map (· - 1)).map (· + 1) = w := by
    rw [List.map_map]
    conv_rhs => rw [← List.map_id w]
    apply List.map_congr_left
    intro a ha
    have : a ≠ 0 := fun e => h0 (e ▸ ha)
    simp only [Function.comp_apply, id]
    omega
  have hv : ∀ a ∈ w.map (· - 1), a < I.scenario.lexorder.length := by
    intro a ha
    obtain ⟨b, hb, rfl⟩ := List.mem_map.1 ha
    have := hw b hb
    have h1 : b ≠ 0 := fun e => h0 (e ▸ hb)
    unfold nOps at this
    omega
  obtain ⟨h1, h2, h3, h4⟩ := C09_factorization I.scenario (w.map (· - 1)) (by simpa using hne) hv hcap
  intro f hf
  unfold factorsOf at hf
  obtain ⟨g, hg, rfl⟩ := List.mem_map.1 hf
  have hg := (List.mem_filter.1 hg).1
  have hsub : (g.map (· + 1)).Sublist w := by
    have := (h2 g hg).2.map (· + 1)
    rwa [hback] at this
  have hrange : InRange I (g.map (· + 1)) := fun x hx => hw x (hsub.subset hx)
  refine ⟨hrange, by simpa using (h2 g hg).1, by simp, ?_⟩
  -- letters of the factor come first
  have hmem : ∀ b ∈ w, (decide (b ∈ g.map (· + 1)) = true ↔ (b - 1) ∈ g) := by
    intro b hb
    have hb0 : b ≠ 0 := fun e => h0 (e ▸ hb)
    simp only [decide_eq_true_eq, List.mem_map]
    constructor
    · rintro ⟨x, hx, rfl⟩; simpa using hx
    · intro h; exact ⟨b - 1, h, by omega⟩
  have hc := commEq_filter (nc := notcomm I) (fun b => decide (b ∈ g.map (· + 1))) w (by
    intro a ha b hb hpa hpb
    by_contra hn
    have hn' : notcomm I a b = true := by simpa using hn
    have hl : I.scenario.sdpLexorder.length = nOps I := by simp [Scenario.sdpLexorder, nOps]
    have hxa := List.getElem?_eq_getElem (l := I.scenario.sdpLexorder) (i := a) (by have := hw a ha; omega)
    have hyb := List.getElem?_eq_getElem (l := I.scenario.sdpLexorder) (i := b) (by have := hw b hb; omega)
    have hs := shareCopy_of_notcomm hn' hxa hyb
    have ha' := (hmem a ha).1 hpa
    have hb' : (b - 1) ∉ g := fun h => by rw [(hmem b hb).2 h] at hpb; cases hpb
    apply hb'
    have a0 : a ≠ 0 := fun e => h0 (e ▸ ha)
    have b0 : b ≠ 0 := fun e => h0 (e ▸ hb)
    refine (h4 g hg (a - 1) ha' (b - 1) (List.mem_map.2 ⟨b, hb, rfl⟩)).2 (.single ⟨List.mem_map.2 ⟨a, ha, rfl⟩, List.mem_map.2 ⟨b, hb, rfl⟩, _, _, ?_, ?_, .inr hs⟩)
    · obtain ⟨i, rfl⟩ := Nat.exists_eq_succ_of_ne_zero a0
      simp [Scenario.sdpLexorder]
    · obtain ⟨i, rfl⟩ := Nat.exists_eq_succ_of_ne_zero b0
      simp [Scenario.sdpLexorder]) (operatorList I).nc_symm
  have hfil : w.filter (fun b => decide (b ∈ g.map (· + 1))) = g.map (· + 1) := by
    have hsub' : (g.map (· + 1)).Sublist (w.filter fun b => decide (b ∈ g.map (· + 1))) := by
      have := hsub.filter fun b => decide (b ∈ g.map (· + 1))
      rwa [List.filter_eq_self.2 (fun a ha => by simpa using ha)] at this
    refine (hsub'.eq_of_length ?_).symm
    -- the factors are disjoint, so the letters of `g` occur in `w` as often as in `g`
    have hp := (h1.map (· + 1))
    rw [hback] at hp
    have hcount := (hp.filter fun b => decide (b ∈ g.map (· + 1))).length_eq
    rw [← hcount]
    obtain ⟨l1, l2, el⟩ := List.append_of_mem hg
    have hd := h3
    rw [el, List.pairwise_append, List.pairwise_cons] at hd
    have hno : ∀ l : List (List Nat), (∀ k ∈ l, List.Disjoint k g) → ((l.flatten.map (· + 1)).filter fun b => decide (b ∈ g.map (· + 1))) = [] := by
      intro l hl
      rw [List.filter_eq_nil_iff]
      intro b hb
      obtain ⟨x, hx, rfl⟩ := List.mem_map.1 hb
      obtain ⟨k, hk, hxk⟩ := List.mem_flatten.1 hx
      simpa using fun h => hl k hk hxk h
    rw [el, List.flatten_append, List.flatten_cons, List.map_append, List.map_append, List.filter_append, List.filter_append,
      hno l1 (fun k hk => hd.2.2 k hk g (by simp)), hno l2 (fun k hk => (hd.2.1.1 k hk).symm), List.filter_eq_self.2 (fun a ha => by simpa using ha)]
    simp
  rw [hfil] at hc
  exact reduced_prefix (reduced_commEq hr hc)

/-! ### The moments of the program -/

theorem reduced_zero {a : List Nat} (hr : InRange I a) (h : Reduced (notcomm I) (orthomat I) a) (h0 : 0 ∈ a) : a = [0] := by
  match a with
  | [] => simp at h0
  | [x] => simp at h0; rw [h0]
  | x :: y :: t =>
    obtain ⟨l1, l2, e⟩ := List.append_of_mem h0
    exfalso
    have H := operatorList I
    have key : ∀ u p q v, x :: y :: t = u ++ p :: q :: v → p = 0 ∨ q = 0 → False := by
      intro u p q v e hpq
      have := (h u p q v (by rw [← e]; exact .refl _)).2.1
      have hp := hr p (by rw [e]; simp)
      have hq := hr q (by rw [e]; simp)
      have h2 : orthomat I p q = true := (H.ortho_iff p q hp hq).2 (by rcases hpq with h | h <;> simp [h])
      rw [this] at h2
      cases h2
    match l2 with
    | q :: v => exact key l1 0 q v e (.inl rfl)
    | [] =>
      rcases List.eq_nil_or_concat l1 with rfl | ⟨u, p, rfl⟩
      · simp at e
      · exact key u p 0 [] (by rw [e]; simp) (.inr rfl)

theorem zero_representative : Representative I [0] where
  range := by intro x hx; simp at hx; rw [hx]; exact nOps_pos I
  reduced := reduced_small (by simp)
  least := by
    refine ⟨sameOrbit_refl (symData I) (by intro x hx; simp at hx; rw [hx]; exact nOps_pos I), ?_⟩
    intro u hu
    obtain ⟨r, -, e⟩ := hu
    have := e.perm.length_eq
    match u with
    | [] => simp at this
    | x :: t =>
      rcases Nat.eq_zero_or_pos x with rfl | hx
      · exact .inr ⟨rfl, trivial⟩
      · exact .inl hx

theorem sameOrbit_length {u v : List Nat} (h : SameOrbit (notcomm I) (symmetries I) u v) : u.length = v.length := by
  obtain ⟨r, -, e⟩ := h
  simpa using e.perm.length_eq

/-- An atom that is neither one nor zero. -/
structure Plain (I : Input) (a : Atom) : Prop where
  repr : Representative I a
  ne : a ≠ []
  nonzero : 0 ∉ a

theorem notcomm_self (x : Nat) : notcomm I x x = false := (operatorList I).nc_diag x

theorem dagger_plain {ch : Choice} (hch : UsualChoice ch I) {a : Atom} (h : Plain I a) : Plain I (ch.dagger a) := by
  have hr := dagger_representative hch h.repr
  obtain ⟨m, hm, e⟩ := hch.dagger a h.repr.range h.repr.reduced
  rw [e] at hr ⊢
  unfold conjugate at hr ⊢
  split
  · exact h
  · rename_i hna
    have h1 : InRange I a.reverse := inRange_reverse.2 h.repr.range
    have h2 := Positivity.reduced_reverse (operatorList I).nc_symm h.repr.reduced
    have h3 := sameOrbit_length (usual_least hm true h1 h2).1
    rw [if_neg hna] at hr
    have hl : 2 ≤ a.length := by
      match a with
      | [] => exact absurd rfl h.ne
      | [x] => exfalso; apply hna; simp [allCommuting, notcomm_self]
      | x :: y :: t => simp
    refine ⟨hr, ?_, ?_⟩
    · intro e
      rw [e] at h3
      simp at h3
      exact h.ne h3
    · intro h0
      have := reduced_zero hr.range hr.reduced h0
      rw [this] at h3
      simp at h3
      omega

theorem dagger_zero {ch : Choice} (hch : UsualChoice ch I) : ch.dagger [0] = [0] := by
  obtain ⟨m, hm, e⟩ := hch.dagger [0] zero_representative.range zero_representative.reduced
  rw [e]
  unfold conjugate
  rw [if_pos]
  simp [allCommuting, notcomm_self]

/-- The zero moment, or a sorted list of atoms that are representatives. -/
structure ProperMoment (I : Input) (m : Mon) : Prop where
  atoms : m = [[0]] ∨ ∀ a ∈ m, Plain I a
  sorted : m.Pairwise fun a b => atomLe a b = true

theorem monFromAtoms_proper {ch : Choice} (hch : UsualChoice ch I) (E : SdpState.Env Mon) (hE : E.dagger = ch.dagger) {l : List Atom} (hl : ∀ a ∈ l, Representative I a) (hz : E.info.zero = isZero) :
    ProperMoment I (SdpState.monFromAtoms E l) := by
  have sorted : ∀ l : List Atom, (sortBy atomLe l).Pairwise fun a b => atomLe a b = true := fun l => sortBy_sorted atomLe atomLe_total atomLe_trans l
  have main : ∀ l : List Atom, (∀ a ∈ l, Plain I a) →
      ProperMoment I (if tupleLe (sortBy atomLe l) (sortBy atomLe ((sortBy atomLe l).map E.dagger)) then sortBy atomLe l else sortBy atomLe ((sortBy atomLe l).map E.dagger)) := by
    intro l hl
    split
    · exact ⟨.inr fun a ha => hl a ((sortBy_perm atomLe l).mem_iff.1 ha), sorted _⟩
    · refine ⟨.inr fun a ha => ?_, sorted _⟩
      obtain ⟨b, hb, rfl⟩ := List.mem_map.1 ((sortBy_perm atomLe _).mem_iff.1 ha)
      rw [hE]
      exact dagger_plain hch (hl b ((sortBy_perm atomLe l).mem_iff.1 hb))
  unfold SdpState.monFromAtoms
  dsimp only
  rcases hf : l.find? E.info.zero with _ | z
  · refine main _ fun a ha => ?_
    obtain ⟨h1, h2⟩ := List.mem_filter.1 ha
    refine ⟨hl a h1, by simpa using h2, fun h0 => ?_⟩
    have := List.find?_eq_none.1 hf a h1
    rw [hz] at this
    simp [isZero, h0] at this
  · have hz' := List.find?_some hf
    rw [hz] at hz'
    have hr := hl _ (List.mem_of_find?_eq_some hf)
    have : z = [0] := reduced_zero hr.range hr.reduced (by simpa [isZero] using hz')
    subst this
    have e : sortBy atomLe ([[0]] : List Atom) = [[0]] := by simp [sortBy, insertBy]
    dsimp only
    rw [e, List.map_singleton, hE, dagger_zero hch, e]
    simp only [ite_self]
    exact ⟨.inl rfl, by simp⟩

/-- The moment of a word that cannot be simplified. -/
theorem momentOf_proper {ch : Choice} (hch : UsualChoice ch I) (name : Atom → String) {w : List Nat} (hw : InRange I w) (hr : Reduced (notcomm I) (orthomat I) w)
    (hcap : 0 ∉ w → EndToEnd.ClassicalModel.Capacity I.scenario (w.map (· - 1))) : ProperMoment I (momentOf I ch name w) := by
  unfold momentOf
  split
  · exact ⟨.inl rfl, by simp⟩
  · rename_i h0
    have h0' : 0 ∉ w := by simpa [List.contains_iff_mem] using h0
    have h1 := factors_reduced hw h0' (hcap h0') hr
    refine monFromAtoms_proper hch _ rfl ?_ rfl
    intro a ha
    obtain ⟨f, hf, rfl⟩ := List.mem_map.1 ha
    obtain ⟨q1, -, -, q4⟩ := h1 _ (List.mem_map.2 ⟨f, hf, rfl⟩)
    exact representative_of_least q1 q4 (usualAtom_least (hch.atomOf _ q1 q4) q1 q4)

theorem moments_proper {cols : List (List Nat)} {ch : Choice} {name : Atom → String} {B : Built} (hV : Setup I cols ch name B) (hch : UsualChoice ch I) :
    ∀ m ∈ B.env.moments, ProperMoment I m := by
  obtain ⟨orbits, repr, c, eqs, h1, h2, h3, hmnd, _, _, henv⟩ := build_some hV.built
  obtain ⟨hnd, hc1, hc2⟩ := symmetrizedCorresp_get h2
  have hkeys : B.index.keys.Nodup := by rw [h3]; exact momentIndex_nodup ch name _ c
  intro m hm
  rw [henv] at hm
  obtain ⟨t, ht, rfl⟩ := List.mem_map.1 hm
  have hg := (State.get_of_mem _ hkeys t.1 t.2).1 ht
  rw [h3, momentIndex_get ch name _ c hnd] at hg
  rcases hcg : c.get t.1 with _ | w
  · rw [hcg] at hg
    dsimp only at hg
    split at hg
    · rw [← Option.some.inj hg]
      exact ⟨.inl rfl, by simp⟩
    · simp at hg
  · rw [hcg] at hg
    rw [← Option.some.inj hg]
    obtain ⟨idx, _, hidx, _, hco⟩ := hc1 t.1 w hcg
    unfold corresp at hco
    obtain ⟨t', hf, rfl⟩ := Option.map_eq_some_iff.1 hco
    obtain ⟨q1, q2⟩ := table_reduced hV.columns.lt t' (List.mem_of_find?_eq_some hf)
    exact momentOf_proper hch name q2 q1 fun h0 => capacity_word hV.copies q2 h0

end Verif.SdpNames

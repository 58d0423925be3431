import Verif.Mixture.Props
/-!
Generating sets closed under taking parts of their words: every atom that `set_distribution(shared_randomness=True)` gives a value to is a moment of the program.
-/
namespace Verif.Mixture
open Verif.Common Verif.Canon Verif.Canon.Spec Verif.Scenario Verif.Components Verif.Moment Verif.MomentMatrix Verif.SymMM Verif.SdpRepr Verif.Symmetry Verif.SdpEnd Verif.SdpNames Verif.Hierarchy Verif.Generate
open Verif.State (Dict Mon mem_keys)
open Verif.SdpState (Call Args SolverOut valuesOf)

/-- The factors of a factor. -/
theorem factorize_factor (S : Scenario) {mon : List Nat} (hne : mon ≠ []) (hv : ∀ a ∈ mon, a < S.lexorder.length) (hcap : EndToEnd.ClassicalModel.Capacity S mon) {g : List Nat}
    (hg : g ∈ factorize S mon) (hcg : EndToEnd.ClassicalModel.Capacity S g) : factorize S g = [g] := by
  obtain ⟨_, h2, _, h4⟩ := C09_factorization S mon hne hv hcap
  obtain ⟨gne, gsub⟩ := h2 g hg
  obtain ⟨k1, k2, k3, k4⟩ := C09_factorization S g gne (fun a ha => hv a (gsub.subset ha)) hcg
  have hj : ∀ a ∈ g, ∀ b ∈ g, Joined S g a b := by
    intro a ha b hb
    have hab := (h4 g hg a ha b (gsub.subset hb)).1 hb
    have key : ∀ c, Joined S mon a c → Joined S g a c ∧ c ∈ g := by
      intro c hc
      induction hc with
      | refl => exact ⟨.refl, ha⟩
      | tail hac hcd ih =>
        obtain ⟨h1, hin⟩ := ih
        have hd := (h4 g hg a ha _ hcd.2.1).2 (Relation.ReflTransGen.tail hac hcd)
        exact ⟨h1.tail ⟨hin, hd, hcd.2.2⟩, hd⟩
    exact (key b hab).1
  have hall : ∀ f ∈ factorize S g, ∀ b ∈ g, b ∈ f := by
    intro f hf b hb
    obtain ⟨fne, fsub⟩ := k2 f hf
    obtain ⟨a, ha⟩ := List.exists_mem_of_ne_nil f fne
    exact (k4 f hf a ha b hb).2 (hj a (fsub.subset ha) b hb)
  obtain ⟨x, hx⟩ := List.exists_mem_of_ne_nil g gne
  rcases hL : factorize S g with _ | ⟨f, fs⟩
  · rw [hL] at k1
    exact absurd (List.nil_perm.1 k1) gne
  · rw [hL] at k1 k2 k3 hall
    rcases fs with _ | ⟨f', fs⟩
    · have hp : f.Perm g := by simpa using k1
      rw [((k2 f (by simp)).2.eq_of_length hp.length_eq)]
    · rw [List.pairwise_cons] at k3
      exact absurd (hall f' (by simp) x hx) (k3.1 f' (by simp) (hall f (by simp) x hx))

variable {I : EndToEnd.Input} {ch : Choice} {name : Atom → String} {cols : List (List Nat)} {B : Built}

/-- Keeping only some of the letters respects equality of operators, unless they vanish. -/
theorem opEq_keep {N : Nat} {comm ortho : Nat → Nat → Prop} (p : Nat → Bool) {u v : List Nat} (h : OpEq N comm ortho u v) (h0 : ¬ OpEq N comm ortho u [0]) : OpEq N comm ortho (u.filter p) (v.filter p) := by
  induction h with
  | refl _ => exact .refl _
  | symm h ih => exact (ih fun h' => h0 (h.symm.trans h')).symm
  | trans h1 _ ih1 ih2 => exact (ih1 h0).trans (ih2 fun h' => h0 (h1.trans h'))
  | swap x a b y hc =>
    simp only [List.filter_append, List.filter_cons]
    split <;> split
    · exact .swap _ _ _ _ hc
    all_goals exact .refl _
  | idem x a y =>
    simp only [List.filter_append, List.filter_cons]
    split
    · exact .idem _ _ _
    · exact .refl _
  | zero x a b y hN ho => exact absurd (.zero x a b y hN ho) h0

/-- Equal operators, for the problem. -/
abbrev Same (I : EndToEnd.Input) (u v : List Nat) : Prop := OpEq (nOps I) (fun a b => notcomm I a b = false) (fun a b => orthomat I a b = true) u v

/-- Equal operators that do not vanish are made of the same letters. -/
theorem opEq_mem {N : Nat} {comm ortho : Nat → Nat → Prop} {u v : List Nat} (h : OpEq N comm ortho u v) (h0 : ¬ OpEq N comm ortho u [0]) (x : Nat) : x ∈ u ↔ x ∈ v := by
  induction h with
  | refl _ => exact Iff.rfl
  | symm h ih => exact (ih fun h' => h0 (h.symm.trans h')).symm
  | trans h1 _ ih1 ih2 => exact (ih1 h0).trans (ih2 fun h' => h0 (h1.trans h'))
  | swap c a b d _ => simp only [List.mem_append, List.mem_cons]; tauto
  | idem c a d => simp only [List.mem_append, List.mem_cons]; tauto
  | zero c a b d hN ho => exact absurd (.zero c a b d hN ho) h0

/-- A generating set that contains, up to equality of operators, every part of one of its words that commutes with the rest of the word. -/
def SubClosed (I : EndToEnd.Input) (cols : List (List Nat)) : Prop :=
  ∀ m ∈ cols, ∀ p : Nat → Bool, (∀ x ∈ m, ∀ y ∈ m, p x = true → p y = false → notcomm I x y = false) → ∃ u ∈ cols, Same I (m.filter p) u

/-- An operator of a factor commutes with the operators outside of it. -/
theorem factor_commutes (hS : copiesOf I.scenario ≤ 254) {w : List Nat} (hw : InRange I w) (h0 : 0 ∉ w) {f : List Nat} (hf : f ∈ factorsOf I w) {a b : Nat} (ha : a ∈ f) (haw : a ∈ w) (hbw : b ∈ w) (hb : b ∉ f) :
    notcomm I a b = false := by
  have hwn : w ≠ [] := by rintro rfl; cases haw
  rw [factorsOf_map hS hw h0 hwn] at hf
  obtain ⟨g, hg, rfl⟩ := List.mem_map.1 hf
  obtain ⟨_, _, _, h4⟩ := C09_factorization I.scenario (w.map (· - 1)) (by simpa using hwn) (lowered_lt hw h0) (capacity_word hS hw h0)
  have a0 : a ≠ 0 := fun e => h0 (e ▸ haw)
  have b0 : b ≠ 0 := fun e => h0 (e ▸ hbw)
  by_contra hn
  have hn' : notcomm I a b = true := by simpa using hn
  have hl : I.scenario.sdpLexorder.length = nOps I := by simp [Scenario.sdpLexorder, nOps]
  have hxa := List.getElem?_eq_getElem (l := I.scenario.sdpLexorder) (i := a) (by have := hw a haw; omega)
  have hyb := List.getElem?_eq_getElem (l := I.scenario.sdpLexorder) (i := b) (by have := hw b hbw; omega)
  have hs := shareCopy_of_notcomm hn' hxa hyb
  have ha' : a - 1 ∈ g := by
    obtain ⟨x, hx, rfl⟩ := List.mem_map.1 ha
    simpa using hx
  refine hb (List.mem_map.2 ⟨b - 1, ?_, by omega⟩)
  refine (h4 g hg (a - 1) ha' (b - 1) (List.mem_map.2 ⟨b, hbw, rfl⟩)).2 (.single ⟨List.mem_map.2 ⟨a, haw, rfl⟩, List.mem_map.2 ⟨b, hbw, rfl⟩, _, _, ?_, ?_, .inr hs⟩)
  · obtain ⟨i, rfl⟩ := Nat.exists_eq_succ_of_ne_zero a0
    simp [Scenario.sdpLexorder]
  · obtain ⟨i, rfl⟩ := Nat.exists_eq_succ_of_ne_zero b0
    simp [Scenario.sdpLexorder]

/-- Equality of operators is respected by products. -/
theorem same_context {u v c d : List Nat} (h : Same I u v) (hc : InRange I c) (hd : InRange I d) : Same I (c ++ u ++ d) (c ++ v ++ d) := by
  induction h with
  | refl _ => exact .refl _
  | symm _ ih => exact ih.symm
  | trans _ _ ih1 ih2 => exact ih1.trans ih2
  | swap x a b y hab =>
    have := OpEq.swap (N := nOps I) (comm := fun a b => notcomm I a b = false) (ortho := fun a b => orthomat I a b = true) (c ++ x) a b (y ++ d) hab
    simpa only [List.append_assoc, List.cons_append] using this
  | idem x a y =>
    have := OpEq.idem (N := nOps I) (comm := fun a b => notcomm I a b = false) (ortho := fun a b => orthomat I a b = true) (c ++ x) a (y ++ d)
    simpa only [List.append_assoc, List.cons_append] using this
  | zero x a b y hN ho =>
    have hz : ∀ x, x < nOps I → orthomat I 0 x = true ∧ orthomat I x 0 = true := fun x hx =>
      ⟨((operatorList I).ortho_iff 0 x (nOps_pos I) hx).2 (.inl rfl), ((operatorList I).ortho_iff x 0 hx (nOps_pos I)).2 (.inr (.inl rfl))⟩
    have h1 : Same I (c ++ (x ++ a :: b :: y) ++ d) [0] := by
      have := OpEq.zero (N := nOps I) (comm := fun a b => notcomm I a b = false) (ortho := fun a b => orthomat I a b = true) (c ++ x) a b (y ++ d) (by
        intro z hz
        simp only [List.append_assoc, List.mem_append, List.mem_cons] at hz hN
        rcases hz with h | h | h | h | h | h
        · exact hc z h
        · exact hN z (.inl h)
        · exact hN z (.inr (.inl h))
        · exact hN z (.inr (.inr (.inl h)))
        · exact hN z (.inr (.inr (.inr h)))
        · exact hd z h) ho
      simpa only [List.append_assoc, List.cons_append] using this
    have h2 : Same I (c ++ [0] ++ d) [0] := by
      rcases d with _ | ⟨y, d⟩
      · rcases List.eq_nil_or_concat c with rfl | ⟨c', z, rfl⟩
        · exact .refl _
        · have hzz := hc z (by simp)
          have := OpEq.zero (N := nOps I) (comm := fun a b => notcomm I a b = false) (ortho := fun a b => orthomat I a b = true) c' z 0 [] (by
            intro w hw
            simp only [List.mem_append, List.mem_cons, List.not_mem_nil, or_false] at hw
            rcases hw with h | rfl | rfl
            · exact hc w (by simp [h])
            · exact hzz
            · exact nOps_pos I) (hz z hzz).2
          simpa using this
      · have hyy := hd y (by simp)
        have := OpEq.zero (N := nOps I) (comm := fun a b => notcomm I a b = false) (ortho := fun a b => orthomat I a b = true) c 0 y d (by
          intro w hw
          simp only [List.mem_append, List.mem_cons] at hw
          rcases hw with h | rfl | rfl | h
          · exact hc w h
          · exact nOps_pos I
          · exact hyy
          · exact hd w (by simp [h])) (hz y hyy).1
        simpa using this
    exact h1.trans h2.symm

theorem same_append {u u' v v' : List Nat} (h1 : Same I u u') (h2 : Same I v v') (hu' : InRange I u') (hv : InRange I v) : Same I (u ++ v) (u' ++ v') := by
  have e1 : Same I (u ++ v) (u' ++ v) := by simpa using same_context (c := []) h1 (by intro x hx; cases hx) hv
  have e2 : Same I (u' ++ v) (u' ++ v') := by simpa using same_context (d := []) h2 hu' (by intro x hx; cases hx)
  exact e1.trans e2

theorem same_zero {u v : List Nat} (hu : InRange I u) (h : Same I u v) : InRange I v := (Verif.Normalization.opEq_range (nOps_pos I) h).1 hu

/-- **Factors are moments.** The moment of a factor of the product of two monomials of a closed generating set is a moment of the program. -/
theorem factor_moment (hch : UsualChoice ch I) (hV : Setup I cols ch name B) (hcl : SubClosed I cols) {m1 m2 : List Nat} (h1 : m1 ∈ cols) (h2 : m2 ∈ cols)
    (h0 : 0 ∉ productWord I m1 m2) {f : List Nat} (hf : f ∈ factorsOf I (productWord I m1 m2)) : momentOf I ch name f ∈ B.env.moments := by
  have r1 : InRange I m1 := hV.columns.lt m1 h1
  have r2 : InRange I m2 := hV.columns.lt m2 h2
  have hS := hV.copies
  have hw := productWord_range r1 r2
  have hwr : Reduced (notcomm I) (orthomat I) (productWord I m1 m2) := canonical_reduced (product_range r1 r2)
  obtain ⟨q1, q2, q3, q4⟩ := factors_reduced hw h0 (capacity_word hS hw h0) hwr f hf
  have hfilt := factorsOf_filter hS hw h0 f hf
  have e := canonical_opEq (I := I) false (product_range r1 r2)
  have hn : ¬ Same I (m1.reverse ++ m2) [0] := by
    intro hz
    have : productWord I m1 m2 = [0] := by
      unfold productWord
      rw [canonC_eq (fun h => (allCommute_iff I).1 h)]
      exact (C03_canonical_detects_zero (operatorList I) _ (product_range r1 r2)).2 hz
    rw [this] at h0
    simp at h0
  have hk := opEq_keep (fun a => decide (a ∈ f)) e hn
  have hfilt' : (toCanonical (notcomm I) (orthomat I) (allCommute I) false (m1.reverse ++ m2)).filter (fun a => decide (a ∈ f)) = f := hfilt
  rw [hfilt', List.filter_append, List.filter_reverse] at hk
  have hin : ∀ x, (x ∈ m1 ∨ x ∈ m2) → x ∈ productWord I m1 m2 := by
    intro x hx
    refine (opEq_mem e hn x).1 ?_
    rcases hx with h | h
    · exact List.mem_append_left _ (List.mem_reverse.2 h)
    · exact List.mem_append_right _ h
  have hcom : ∀ x y, (x ∈ m1 ∨ x ∈ m2) → (y ∈ m1 ∨ y ∈ m2) → decide (x ∈ f) = true → decide (y ∈ f) = false → notcomm I x y = false := fun x y hx hy hxf hyf =>
    factor_commutes hS hw h0 hf (of_decide_eq_true hxf) (hin x hx) (hin y hy) (of_decide_eq_false hyf)
  obtain ⟨u1, hu1, e1⟩ := hcl m1 h1 (fun a => decide (a ∈ f)) fun x hx y hy => hcom x y (.inl hx) (.inl hy)
  obtain ⟨u2, hu2, e2⟩ := hcl m2 h2 (fun a => decide (a ∈ f)) fun x hx y hy => hcom x y (.inr hx) (.inr hy)
  have hs : Same I ((m1.filter fun a => decide (a ∈ f)).reverse ++ m2.filter fun a => decide (a ∈ f)) (u1.reverse ++ u2) :=
    same_append (MomentMatrix.opEq_reverse (operatorList I) e1) e2 (inRange_reverse.2 (hV.columns.lt u1 hu1)) fun x hx => r2 x (List.mem_filter.1 hx).1
  refine (moments_iff hch hV _).2 ⟨u1, hu1, u2, hu2, ?_⟩
  refine (productMoment_eq hch name hS (hV.columns.lt u1 hu1) (hV.columns.lt u2 hu2) q1 q3 q4 (List.mem_of_mem_head? (symData I).group.ident) (.inl ?_)).symm
  rw [map_id q1]
  exact hk.symm.trans hs

/-- The moment of a factor is a single atom. -/
theorem momentOf_factor (hch : UsualChoice ch I) (hV : Setup I cols ch name B) {w : List Nat} (hw : InRange I w) (h0 : 0 ∉ w) (hwr : Reduced (notcomm I) (orthomat I) w) {f : List Nat}
    (hf : f ∈ factorsOf I w) : momentOf I ch name f = if tupleLe [ch.atomOf f] [ch.dagger (ch.atomOf f)] then [ch.atomOf f] else [ch.dagger (ch.atomOf f)] := by
  have hS := hV.copies
  obtain ⟨q1, q2, q3, q4⟩ := factors_reduced hw h0 (capacity_word hS hw h0) hwr f hf
  have hwn : w ≠ [] := by
    rintro rfl
    have : factorize I.scenario [] = [[]] := by simp [factorize]
    simp [factorsOf, this] at hf
  rw [factorsOf_map hS hw h0 hwn] at hf
  obtain ⟨g, hg, rfl⟩ := List.mem_map.1 hf
  have hge : (g.map (· + 1)).map (· - 1) = g := by
    rw [List.map_map]
    exact (List.map_congr_left fun a _ => by simp).trans (List.map_id g)
  have hgc := capacity_word hS q1 q3
  rw [hge] at hgc
  have hone : factorsOf I (g.map (· + 1)) = [g.map (· + 1)] := by
    rw [factorsOf_map hS q1 q3 q2, hge, factorize_factor I.scenario (by simpa using hwn) (lowered_lt hw h0) (capacity_word hS hw h0) hg hgc]
    rfl
  have hsing : ∀ u : Atom, sortBy atomLe [u] = [u] := fun u => List.perm_singleton.1 (sortBy_perm atomLe [u])
  rw [momentOf_eq hch name hS q1 q3 q4, hone]
  simp only [List.map_cons, List.map_nil, hsing]

theorem fromAtoms_single (hV : Setup I cols ch name B) {b : Atom} (hne : b ≠ []) : SdpState.monFromAtoms B.env [b] = if tupleLe [b] [ch.dagger b] then [b] else [ch.dagger b] := by
  obtain ⟨_, _, _, _, _, _, _, _, _, _, henv⟩ := build_some hV.built
  have hd : B.env.dagger = ch.dagger := by rw [henv]
  have hsing : ∀ u : Atom, sortBy atomLe [u] = [u] := fun u => List.perm_singleton.1 (sortBy_perm atomLe [u])
  have key : ∀ l : List Atom, l = [b] → (if tupleLe (sortBy atomLe l) (sortBy atomLe ((sortBy atomLe l).map B.env.dagger)) then sortBy atomLe l else sortBy atomLe ((sortBy atomLe l).map B.env.dagger)) =
      if tupleLe [b] [ch.dagger b] then [b] else [ch.dagger b] := by
    rintro l rfl
    rw [hsing, List.map_singleton, hsing, hd]
  unfold SdpState.monFromAtoms
  dsimp only
  apply key
  split
  · rename_i z hz
    have : z = b := by simpa using List.mem_of_find?_eq_some hz
    rw [this]
  · simp [hne]

/-- **Atoms are moments.** With a closed generating set, the monomial of each atom of a moment is a moment. -/
theorem atomics_moments (hch : UsualChoice ch I) (hV : Setup I cols ch name B) (hcl : SubClosed I cols) {m : Mon} (hm : m ∈ atomicMonomials B) : m ∈ B.env.moments := by
  obtain ⟨b, hb, rfl⟩ := List.mem_map.1 hm
  have hb := mem_sortBy.1 hb
  rw [mem_dedupB] at hb
  obtain ⟨n, hn, hbn⟩ := List.mem_flatten.1 hb
  obtain ⟨m1, h1, m2, h2, e⟩ := (moments_iff hch hV n).1 hn
  have r1 : InRange I m1 := hV.columns.lt m1 h1
  have r2 : InRange I m2 := hV.columns.lt m2 h2
  have hw := productWord_range r1 r2
  have hwr : Reduced (notcomm I) (orthomat I) (productWord I m1 m2) := canonical_reduced (product_range r1 r2)
  by_cases h0 : 0 ∈ productWord I m1 m2
  · have en : n = [[0]] := by
      rw [e]
      unfold productMoment momentOf
      rw [if_pos (List.contains_iff_mem.2 h0)]
    subst en
    have : b = [0] := by simpa using hbn
    subst this
    rw [fromAtoms_single hV (by simp), dagger_zero hch]
    simpa using hn
  · have e' := e
    unfold productMoment at e'
    rw [momentOf_eq hch name hV.copies hw h0 hwr] at e'
    have hd : ∃ f ∈ factorsOf I (productWord I m1 m2), b = ch.atomOf f ∨ b = ch.dagger (ch.atomOf f) := by
      rw [e'] at hbn
      split at hbn
      · obtain ⟨f, hf, rfl⟩ := List.mem_map.1 (mem_sortBy.1 hbn)
        exact ⟨f, hf, .inl rfl⟩
      · obtain ⟨a, ha, rfl⟩ := List.mem_map.1 (mem_sortBy.1 hbn)
        obtain ⟨f, hf, rfl⟩ := List.mem_map.1 (mem_sortBy.1 ha)
        exact ⟨f, hf, .inr rfl⟩
    obtain ⟨f, hf, hbf⟩ := hd
    obtain ⟨_, hl, hp⟩ := factor_atoms hch hV.copies hw h0 hwr f hf
    have hmom := factor_moment hch hV hcl h1 h2 h0 hf
    rw [momentOf_factor hch hV hw h0 hwr hf] at hmom
    have hdd := Linear.dagger_dagger hch hp.repr
    have hpd := dagger_plain hch hp
    rcases hbf with rfl | rfl
    · rw [fromAtoms_single hV hp.ne]
      exact hmom
    · rw [fromAtoms_single hV hpd.ne, hdd]
      have hsw : (if tupleLe [ch.dagger (ch.atomOf f)] [ch.atomOf f] = true then [ch.dagger (ch.atomOf f)] else [ch.atomOf f]) =
          if tupleLe [ch.atomOf f] [ch.dagger (ch.atomOf f)] = true then [ch.atomOf f] else [ch.dagger (ch.atomOf f)] := by
        by_cases c1 : tupleLe [ch.dagger (ch.atomOf f)] [ch.atomOf f] = true
        · rw [if_pos c1]
          by_cases c2 : tupleLe [ch.atomOf f] [ch.dagger (ch.atomOf f)] = true
          · rw [if_pos c2]
            exact tupleLe_antisymm _ _ c1 c2
          · rw [if_neg c2]
        · rw [if_neg c1]
          rcases tupleLe_total [ch.dagger (ch.atomOf f)] [ch.atomOf f] with h | h
          · exact absurd h c1
          · rw [if_pos h]
      rw [hsw]
      exact hmom

/-- **C76, closed generating sets.** With a closed generating set containing the identity, whatever distribution was given with `shared_randomness=True` and whatever calls of `set_objective` and `solve` followed,
the arguments for the solver can be prepared. -/
theorem C76_closed_sets_solvable (hch : UsualChoice ch I) (hV : Setup I cols ch name B) (hone : [] ∈ cols) (hcl : SubClosed I cols) {P : List Nat → Rat} {c : Call Mon}
    (hc : setDistribution I B P false true = some c) {l : List (Call Mon)} (hl : ∀ c ∈ l, Later c) (solver : Args → SolverOut) :
    ∃ a, SdpState.solverArgs B.env (SdpState.run B.env solver (c :: l)) = some a := by
  obtain ⟨w, hw, F⟩ := in_force hV hc solver
  have hS := run_constraints (E := B.env) solver c hl
  refine solverArgs_total _ _ fun m x hx => ?_
  rw [hS.known, F.known, valuesOf_shared] at hx
  obtain ⟨hg, _⟩ := (direct_iff hV hw m x).1 hx
  rcases hg with ⟨q, _⟩ | rfl | ⟨rfl, hz⟩
  · exact atomics_moments hch hV hcl q
  · exact one_mem hV.columns hV.built hone
  · exact (zero_iff hch hV).2 hz

end Verif.Mixture

import Verif.Sanitise.Text
/-!
Invariants of the table of moments.
-/
namespace Verif.Sanitise
open Verif.Common Verif.Scenario Verif.Orbits Verif.Components Verif.Moment Verif.State Verif.Text Verif.Names Verif.EndToEnd
open Verif.Symmetry (lexorderSymmetries Relabelling)

variable {I : Input} {names : List Str}

theorem joinChars_head {l : List Str} (hne : l ≠ []) (P : Char → Prop) (h : ∀ x ∈ l, ∃ c t, x = c :: t ∧ P c) : ∃ c t, joinChars l = c :: t ∧ P c := by
  rw [joinChars_eq, if_neg (by simpa using hne)]
  have hc : (counter l).map powerText ≠ [] := by
    obtain ⟨x, hx⟩ := List.exists_mem_of_ne_nil l hne
    have : (x, l.count x) ∈ counter l := List.mem_map.2 ⟨x, mem_dedupB.2 hx, rfl⟩
    exact List.ne_nil_of_mem (List.mem_map.2 ⟨_, this, rfl⟩)
  have hall : ∀ y ∈ (counter l).map powerText, ∃ c t, y = c :: t ∧ P c := by
    intro y hy
    obtain ⟨t, ht, rfl⟩ := List.mem_map.1 hy
    obtain ⟨a, ha, rfl⟩ := List.mem_map.1 ht
    obtain ⟨c, u, e, hp⟩ := h a (mem_dedupB.1 ha)
    unfold powerText
    dsimp only
    split
    · exact ⟨c, _, by rw [e]; rfl, hp⟩
    · exact ⟨c, u, e, hp⟩
  generalize (counter l).map powerText = ys at hc hall
  match ys, hc, hall with
  | [y], _, hall => simpa [joinStr] using hall y (by simp)
  | y :: z :: ys, _, hall =>
    obtain ⟨c, t, e, hp⟩ := hall y (by simp)
    exact ⟨c, _, by rw [joinStr, e]; rfl, hp⟩

theorem momentText_head (h : NamesOk I names) {m : Mon} (hm : m ≠ []) : ∃ t, momentText I names m = 'P' :: t := by
  obtain ⟨c, t, e, rfl⟩ := joinChars_head (l := m.map (atomText I names)) (by simpa using hm) (· = 'P') (by
    intro x hx
    obtain ⟨a, -, rfl⟩ := List.mem_map.1 hx
    obtain ⟨t, e, -⟩ := atomText_form h a
    exact ⟨'P', _, by rw [e]; rfl, rfl⟩)
  exact ⟨t, e⟩

theorem momentLegacy_head {m : Mon} (hm : m ≠ []) : ∃ c t, momentLegacy I names m = c :: t ∧ (c = 'p' ∨ c = '<') := by
  refine joinChars_head (l := m.map (legacyText I names)) (by simpa using hm) _ ?_
  intro x hx
  obtain ⟨a, -, rfl⟩ := List.mem_map.1 hx
  unfold legacyText
  split
  · exact ⟨'p', _, rfl, Or.inl rfl⟩
  · exact ⟨'<', _, rfl, Or.inr rfl⟩

theorem momentText_nil : momentText I names [] = ['1'] := rfl
theorem momentLegacy_nil : momentLegacy I names [] = ['1'] := rfl

/-- The table of moments: the atoms of the moments are in the cache, the moments are sorted, and the table maps the name of every moment to the moment. -/
structure Inv (I : Input) (names : List Str) (s : Session) : Prop where
  cache : CacheInv I.scenario.lexorder.length (lexorderSymmetries I.scenario) s.cache
  atoms : ∀ m ∈ s.created, ∀ a ∈ m, ∃ k, s.cache.lookup k = some a
  sorted : ∀ m ∈ s.created, sortBy atomLe m = m
  text : ∀ m ∈ s.created, s.table.get (momentText I names m) = some m
  range : ∀ t m, s.table.get t = some m → m ∈ s.created ∨ m = []
  one : s.table.get ['1'] = some []
  constant : s.table.get constantName = some []
  keys : ∀ t m, s.table.get t = some m → t = ['1'] ∨ t = constantName ∨ ∃ m', t = momentText I names m' ∨ t = momentLegacy I names m'

theorem momentText_inj (h : NamesOk I names) {c : Cache} (hc : CacheInv I.scenario.lexorder.length (lexorderSymmetries I.scenario) c) {m m' : Mon}
    (hm : ∀ a ∈ m, ∃ k, c.lookup k = some a) (hm' : ∀ a ∈ m', ∃ k, c.lookup k = some a) (hs : sortBy atomLe m = m) (hs' : sortBy atomLe m' = m')
    (he : momentText I names m = momentText I names m') : m = m' := by
  let J : AtomInfo := ⟨fun _ => false, fun _ => false, fun _ => false, fun a => String.ofList (atomText I names a)⟩
  have hat : ∀ a ∈ m ++ m', ∃ k, c.lookup k = some a := by
    intro a ha
    rcases List.mem_append.1 ha with ha | ha
    · exact hm a ha
    · exact hm' a ha
  have hname : ∀ m : Mon, sortBy atomLe m = m → (compound J m).name = String.ofList (momentText I names m) := by
    intro m hs
    show joinNames ((sortBy atomLe m).map J.name) = _
    rw [hs]
    unfold joinNames momentText
    congr 2
    rw [List.map_map]
    apply List.map_congr_left
    intro a _
    simp [J]
  have := (C40_compound_names J m m' (by
    intro a _
    simpa [J] using atomText_like h a) (by
    intro a ha b hb e
    obtain ⟨k, hk⟩ := hat a ha
    obtain ⟨k', hk'⟩ := hat b hb
    have e' : atomText I names a = atomText I names b := by
      have e : String.ofList (atomText I names a) = String.ofList (atomText I names b) := e
      simpa using congrArg String.toList e
    exact atomText_inj h hc hk hk' e') (by rw [hname m hs, hname m' hs', he])).2
  have hf := congrArg Compound.factors this
  have : sortBy atomLe m = sortBy atomLe m' := hf
  rwa [hs, hs'] at this

theorem Inv.extend {s : Session} (hi : Inv I names s) {c : Cache} (hc : CacheInv I.scenario.lexorder.length (lexorderSymmetries I.scenario) c) (he : Extends s.cache c) :
    Inv I names { s with cache := c } :=
  ⟨hc, fun m hm a ha => (hi.atoms m hm a ha).imp fun k hk => he k a hk, hi.sorted, hi.text, hi.range, hi.one, hi.constant, hi.keys⟩

/-- `_monomial_from_atoms` keeps the table consistent. -/
theorem register_inv (h : NamesOk I names) {s : Session} (hi : Inv I names s) {m : Mon} (ha : ∀ a ∈ m, ∃ k, s.cache.lookup k = some a) (hs : sortBy atomLe m = m) :
    Inv I names (register I names s m) ∧ m ∈ (register I names s m).created ∧ (∀ m' ∈ s.created, m' ∈ (register I names s m).created) ∧ (register I names s m).cache = s.cache := by
  unfold register
  split
  · rename_i hmem
    exact ⟨hi, hmem, fun m' h => h, rfl⟩
  · rename_i hmem
    have hget : ∀ t, Dict.get (Dict.set (Dict.set s.table (momentText I names m) m) (momentLegacy I names m) m) t =
        if momentLegacy I names m = t then some m else if momentText I names m = t then some m else s.table.get t := by
      intro t
      rw [get_set, get_set]
    have hkeep : ∀ t m', s.table.get t = some m' → (m' ≠ m → momentText I names m ≠ t) → (m' ≠ m → momentLegacy I names m ≠ t) →
        Dict.get (Dict.set (Dict.set s.table (momentText I names m) m) (momentLegacy I names m) m) t = some m' := by
      intro t m' h0 h1 h2
      by_cases e : m' = m
      · subst e
        rw [hget]
        split
        · rfl
        · split
          · rfl
          · exact h0
      · rw [hget, if_neg (h2 e), if_neg (h1 e)]
        exact h0
    have hT : ∀ c t, c ≠ 'P' → c ≠ '1' → momentText I names m ≠ c :: t := by
      intro c t h1 h2 e
      by_cases hm : m = []
      · rw [hm, momentText_nil] at e
        exact h2 (List.cons.inj e).1.symm
      · obtain ⟨u, hu⟩ := momentText_head h hm
        rw [hu] at e
        exact h1 (List.cons.inj e).1.symm
    have hL : ∀ c t, c ≠ 'p' → c ≠ '<' → c ≠ '1' → momentLegacy I names m ≠ c :: t := by
      intro c t h1 h2 h3 e
      by_cases hm : m = []
      · rw [hm, momentLegacy_nil] at e
        exact h3 (List.cons.inj e).1.symm
      · obtain ⟨x, u, hu, hx⟩ := momentLegacy_head (I := I) (names := names) hm
        rw [hu] at e
        have := (List.cons.inj e).1
        rcases hx with rfl | rfl
        · exact h1 this.symm
        · exact h2 this.symm
    refine ⟨⟨hi.cache, ?_, ?_, ?_, ?_, ?_, ?_, ?_⟩, by simp, fun m' h => by simp [h], rfl⟩
    · intro m' hm'
      rcases List.mem_append.1 hm' with hm' | hm'
      · exact hi.atoms m' hm'
      · rw [List.mem_singleton.1 hm']; exact ha
    · intro m' hm'
      rcases List.mem_append.1 hm' with hm' | hm'
      · exact hi.sorted m' hm'
      · rw [List.mem_singleton.1 hm']; exact hs
    · intro m' hm'
      rcases List.mem_append.1 hm' with hm' | hm'
      · apply hkeep _ _ (hi.text m' hm')
        · intro hne e
          exact hne (momentText_inj h hi.cache ha (hi.atoms m' hm') hs (hi.sorted m' hm') e).symm
        · intro hne e
          by_cases hm0 : m' = []
          · subst hm0
            rw [momentText_nil] at e
            obtain ⟨x, u, hu, hx⟩ := momentLegacy_head (I := I) (names := names) (m := m) (fun e => hne e.symm)
            rw [hu] at e
            have := (List.cons.inj e).1
            rcases hx with rfl | rfl <;> simp at this
          · obtain ⟨u, hu⟩ := momentText_head h hm0
            rw [hu] at e
            exact hL 'P' u (by decide) (by decide) (by decide) e
      · rw [List.mem_singleton.1 hm', hget]
        split
        · rfl
        · rw [if_pos rfl]
    · intro t m' ht
      have ht : Dict.get (Dict.set (Dict.set s.table (momentText I names m) m) (momentLegacy I names m) m) t = some m' := ht
      rw [hget] at ht
      show m' ∈ s.created ++ [m] ∨ m' = []
      split at ht
      · left; simp [(Option.some.inj ht).symm]
      · split at ht
        · left; simp [(Option.some.inj ht).symm]
        · rcases hi.range t m' ht with h | h
          · left; simp [h]
          · exact Or.inr h
    · apply hkeep _ _ hi.one
      · intro hne e
        obtain ⟨u, hu⟩ := momentText_head h (m := m) (fun e => hne e.symm)
        rw [hu] at e
        simp at e
      · intro hne e
        obtain ⟨x, u, hu, hx⟩ := momentLegacy_head (I := I) (names := names) (m := m) (fun e => hne e.symm)
        rw [hu] at e
        have := (List.cons.inj e).1
        rcases hx with rfl | rfl <;> simp at this
    · apply hkeep _ _ hi.constant
      · intro _; exact hT 'c' _ (by decide) (by decide)
      · intro _; exact hL 'c' _ (by decide) (by decide) (by decide)
    · intro t m' ht
      have ht : Dict.get (Dict.set (Dict.set s.table (momentText I names m) m) (momentLegacy I names m) m) t = some m' := ht
      rw [hget] at ht
      split at ht
      · rename_i e; exact Or.inr (Or.inr ⟨m, Or.inr e.symm⟩)
      · split at ht
        · rename_i e; exact Or.inr (Or.inr ⟨m, Or.inl e.symm⟩)
        · exact hi.keys t m' ht

theorem forall2_mem_right {α β : Type} {R : α → β → Prop} {l : List α} {m : List β} (h : List.Forall₂ R l m) {b : β} (hb : b ∈ m) : ∃ a ∈ l, R a b := by
  induction h with
  | nil => simp at hb
  | cons h _ ih =>
    rcases List.mem_cons.1 hb with rfl | hb
    · exact ⟨_, List.mem_cons_self .., h⟩
    · obtain ⟨a, ha, hr⟩ := ih hb
      exact ⟨a, List.mem_cons_of_mem _ ha, hr⟩

theorem sort_idem (m : Mon) : sortBy atomLe (sortBy atomLe m) = sortBy atomLe m := sort_perm (sortBy_perm _ _)

/-- `Monomial` keeps the table consistent and puts the moment into it. -/
theorem monomial_inv (h : NamesOk I names) {s : Session} (hi : Inv I names s) {a : List Nat} (ha : ∀ x ∈ a, x < I.scenario.lexorder.length) :
    Inv I names (monomial I names s a).1 ∧ (monomial I names s a).2 ∈ (monomial I names s a).1.created ∧ (∀ m' ∈ s.created, m' ∈ (monomial I names s a).1.created) ∧
      Extends s.cache (monomial I names s a).1.cache ∧ (monomial I names s a).1.cache = (monomialOf I.scenario s.cache a).1 := by
  obtain ⟨i1, i2, i3⟩ := atomsOf_inv (factorize I.scenario a) s.cache hi.cache (fun f hf x hx => ha x ((factorize_sublist hf).subset hx))
  have hi' := hi.extend (c := (monomialOf I.scenario s.cache a).1) i1 i2
  obtain ⟨r1, r2, r3, r4⟩ := register_inv h hi' (m := (monomialOf I.scenario s.cache a).2) (by
    intro b hb
    have hb : b ∈ (atomsOf I.scenario s.cache (factorize I.scenario a)).2 := mem_sortBy.1 hb
    obtain ⟨f, -, hf⟩ := forall2_mem_right i3 hb
    exact ⟨_, hf⟩) (sort_idem _)
  refine ⟨r1, r2, r3, ?_, r4⟩
  show Extends s.cache (register I names _ _).cache
  rw [r4]
  exact i2

theorem start_inv : Inv I names (start) where
  cache := inv_nil
  atoms := by intro m hm; simp [start] at hm
  sorted := by intro m hm; simp [start] at hm
  text := by intro m hm; simp [start] at hm
  range := by
    intro t m ht
    right
    have ht : Dict.get (Dict.set (Dict.set [] ['1'] []) constantName []) t = some m := ht
    rw [get_set, get_set] at ht
    split at ht
    · exact (Option.some.inj ht).symm
    · split at ht
      · exact (Option.some.inj ht).symm
      · simp at ht
  one := by
    show Dict.get (Dict.set (Dict.set [] ['1'] []) constantName []) ['1'] = some []
    rw [get_set, get_set]
    simp
  constant := by
    show Dict.get (Dict.set (Dict.set [] ['1'] []) constantName []) constantName = some []
    rw [get_set]
    simp
  keys := by
    intro t m ht
    have ht : Dict.get (Dict.set (Dict.set [] ['1'] []) constantName []) t = some m := ht
    rw [get_set, get_set] at ht
    split at ht
    · rename_i e; exact Or.inr (Or.inl e.symm)
    · split at ht
      · rename_i e; exact Or.inl e.symm
      · simp at ht

/-- The columns: the table is consistent and contains their moments. -/
theorem columns_inv (h : NamesOk I names) : ∀ (vs : List (List Bool)), (∀ v ∈ vs, v.length = I.scenario.lexorder.length) → ∀ s : Session, Inv I names s →
    Inv I names (vs.foldl (fun s v => (monomial I names s (flatnonzero v)).1) s) ∧
    (∀ m ∈ s.created, m ∈ (vs.foldl (fun s v => (monomial I names s (flatnonzero v)).1) s).created) ∧
    Extends s.cache (vs.foldl (fun s v => (monomial I names s (flatnonzero v)).1) s).cache ∧
    List.Forall₂ (fun v m => m ∈ (vs.foldl (fun s v => (monomial I names s (flatnonzero v)).1) s).created ∧
      ∃ c, CacheInv I.scenario.lexorder.length (lexorderSymmetries I.scenario) c ∧ (monomialOf I.scenario c (flatnonzero v)).2 = m ∧
        Extends (monomialOf I.scenario c (flatnonzero v)).1 (vs.foldl (fun s v => (monomial I names s (flatnonzero v)).1) s).cache) vs (columnMoments I.scenario s.cache vs) := by
  intro vs
  induction vs with
  | nil => intro _ s hi; exact ⟨hi, fun m hm => hm, .refl _, .nil⟩
  | cons v vs ih =>
    intro hv s hi
    obtain ⟨m1, m2, m3, m4, m5⟩ := monomial_inv h hi (flatnonzero_lt (hv v (List.mem_cons_self ..)))
    obtain ⟨i1, i2, i3, i4⟩ := ih (fun w hw => hv w (List.mem_cons_of_mem _ hw)) _ m1
    rw [List.foldl_cons]
    refine ⟨i1, fun m hm => i2 m (m3 m hm), m4.trans i3, ?_⟩
    unfold columnMoments
    refine .cons ⟨i2 _ m2, s.cache, hi.cache, rfl, ?_⟩ ?_
    · rw [← m5]; exact i3
    · rw [m5] at i4; exact i4

end Verif.Sanitise

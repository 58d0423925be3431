import Verif.Physical.Lemmas
/-!
The columns of a physical generating set are the increasing lists of operators that can be observed together, within the levels.
-/
namespace Verif.Physical
open Verif.Common Verif.Scenario Verif.SdpEnd Verif.CollinsGisin Verif.Cliques
open Verif.Orbits (flatnonzero boolKey)
open Verif.Columns (partyOf)
open Verif.EndToEnd (Input)

variable {I : Input}

theorem shortEnough_iff {S : Scenario} {caps : List (Option Nat)} {T : List Nat} :
    shortEnough S caps T = true ↔ ∀ p c, caps[p]? = some (some c) → (T.map (templateParty S)).count (p + 1) ≤ c := by
  unfold shortEnough
  rw [List.all_eq_true]
  constructor
  · intro h p c hp
    have := h p (List.mem_range.2 (List.getElem?_eq_some_iff.1 hp).1)
    rw [List.getD_eq_getElem?_getD, hp] at this
    simpa using this
  · intro h p hp
    rw [List.getD_eq_getElem?_getD, List.getElem?_eq_getElem (List.mem_range.1 hp), Option.getD_some]
    rcases hc : caps[p]'(List.mem_range.1 hp) with _ | c
    · rfl
    · have := h p c (by rw [List.getElem?_eq_getElem (List.mem_range.1 hp), hc])
      simpa using this

theorem shortEnough_perm {S : Scenario} {caps : List (Option Nat)} {T T' : List Nat} (h : T.Perm T') : shortEnough S caps T = shortEnough S caps T' := by
  rw [Bool.eq_iff_iff, shortEnough_iff, shortEnough_iff]
  simp only [fun p => (h.map (templateParty S)).count_eq p]

theorem cgGroups_nodes (hout : HasOutcomes I) {L : List Nat} (hL : L ∈ cgLists (measurements I)) : ∀ r ∈ L, r < I.scenario.lexorder.length := by
  intro r hr
  obtain ⟨t, ht⟩ := List.getElem?_of_mem hL
  exact ((cg_subLists (measurements I)).idx (blocksOk hout) (t := t) (r := r) (by rw [List.getD_eq_getElem?_getD, ht]; exact hr)).2

/-- The letters of the vectors generated from a template. -/
theorem mem_words (hout : HasOutcomes I) (maxLen : Nat) (caps : List (Option Nat)) (m : List Nat) :
    m ∈ physicalCols I maxLen caps ↔ ∃ T ∈ templates I maxLen caps, ∃ e : List Nat, T.Perm (e.map (idx I)) ∧
      (∀ r ∈ e, r < I.scenario.lexorder.length ∧ r ∈ (cgLists (measurements I)).getD (idx I r) []) ∧ e.Pairwise (· < ·) ∧ m = e.map (· + 1) := by
  have hB := blocksOk hout
  have hL := cg_subLists (measurements I)
  unfold physicalCols boolvecs
  rw [mem_sortBy, List.mem_map, cgGroups_eq]
  constructor
  · rintro ⟨v, hv, rfl⟩
    obtain ⟨T, hT, hv⟩ := List.mem_flatMap.1 hv
    rw [templateEvents_eq, List.mem_map] at hv
    obtain ⟨e, he, rfl⟩ := hv
    have hi := choice_idx hB hL (mem_choices.1 he)
    refine ⟨T, hT, flatnonzero (boolKey (nOps I) e), ?_, ?_, flatnonzero_sorted _, rfl⟩
    · have hTn : T.Nodup := by
        have := ((C07_all_cliques _ _ _ _ _).1 (List.mem_filter.1 hT).1).1.sorted
        exact this.imp fun h => Nat.ne_of_lt h
      have hen : e.Nodup := by
        have : (e.map (blockIdx (blocksOf (measurements I)))).Nodup := by rw [hi.1]; exact (desc_perm T).nodup_iff.2 hTn
        exact this.of_map
      have hp : e.Perm (flatnonzero (boolKey (nOps I) e)) := by
        rw [List.perm_ext_iff_of_nodup hen ((flatnonzero_sorted _).imp fun h => Nat.ne_of_lt h)]
        intro x
        rw [mem_flatnonzero_boolKey]
        exact ⟨fun h => ⟨by have := (hi.2 x h).1; unfold nOps; omega, h⟩, fun h => h.2⟩
      have := hp.map (idx I)
      unfold idx at this ⊢
      rw [hi.1] at this
      exact (desc_perm T).symm.trans this
    · intro r hr
      exact hi.2 r (mem_flatnonzero_boolKey.1 hr).2
  · rintro ⟨T, hT, e, hp, he, hs, rfl⟩
    obtain ⟨e', hp', hc⟩ := choice_of (Ls := cgLists (measurements I)) (blocks := blocksOf (measurements I)) e (fun r hr => (he r hr).2) ((desc_perm T).trans hp)
    refine ⟨boolKey (nOps I) e', List.mem_flatMap.2 ⟨T, hT, ?_⟩, ?_⟩
    · rw [templateEvents_eq]
      exact List.mem_map.2 ⟨e', mem_choices.2 hc, rfl⟩
    · congr 1
      apply sorted_ext (flatnonzero_sorted _) hs
      intro x
      rw [mem_flatnonzero_boolKey, hp'.mem_iff]
      exact ⟨fun h => h.2, fun h => ⟨by have := (he x h).1; unfold nOps; omega, h⟩⟩

theorem allowed_rank {x : Nat} (h : ∃ p, Columns.Allowed I.scenario (cardinalities I) p x) : ∃ r, x = r + 1 ∧ r < I.scenario.lexorder.length := by
  obtain ⟨p, o, h1, h2, _⟩ := h
  cases x with
  | zero =>
    simp only [Scenario.sdpLexorder, List.getElem?_cons_zero, Option.some.injEq] at h1
    rw [← h1] at h2
    simp [zeroOp] at h2
  | succ r =>
    refine ⟨r, rfl, ?_⟩
    rw [Scenario.sdpLexorder, List.getElem?_cons_succ] at h1
    exact (List.getElem?_eq_some_iff.1 h1).1

theorem together_iff (hout : HasOutcomes I) {r s : Nat} (hr : r < I.scenario.lexorder.length) (hs : s < I.scenario.lexorder.length) (hne : r ≠ s) :
    Together I (r + 1) (s + 1) ↔ idx I r ≠ idx I s ∧ templateAdj I.scenario I.D I.anyNonclassical (idx I r) (idx I s) = true := by
  unfold Together
  have h1 := ortho_eq hout hr hs hne
  constructor
  · rintro ⟨a, b⟩
    have hn : idx I r ≠ idx I s := fun e => by rw [h1.2 e] at b; simp at b
    exact ⟨hn, by rw [adj_eq hout hr hs hn, a]; rfl⟩
  · rintro ⟨hn, a⟩
    rw [adj_eq hout hr hs hn] at a
    refine ⟨by simpa using a, ?_⟩
    rcases ho : orthomat I (r + 1) (s + 1) with _ | _
    · rfl
    · exact absurd (h1.1 ho) hn

theorem count_party (hout : HasOutcomes I) {e : List Nat} (he : ∀ r ∈ e, r < I.scenario.lexorder.length) (p : Nat) :
    ((e.map (idx I)).map (templateParty I.scenario)).count (p + 1) = ((e.map (· + 1)).map (partyOf I.scenario)).count p := by
  rw [List.map_map, List.map_map, List.count_eq_countP, List.count_eq_countP, List.countP_map, List.countP_map]
  apply List.countP_congr
  intro r hr
  have h1 := party_eq hout (he r hr)
  have h2 := partyOf_eq (he r hr)
  have h3 := party_pos hout (he r hr)
  simp only [Function.comp_apply, beq_iff_eq, h1, h2]
  omega

/-- The columns of a physical generating set. -/
theorem mem_physicalCols (hout : HasOutcomes I) (maxLen : Nat) (caps : List (Option Nat)) (m : List Nat) : m ∈ physicalCols I maxLen caps ↔ PhysicalWord I maxLen caps m := by
  rw [mem_words hout]
  have hlen : (measurements I).length = (blocksOf (measurements I)).length := by unfold blocksOf; simp
  constructor
  · rintro ⟨T, hT, e, hp, he, hs, rfl⟩
    rw [templates, List.mem_filter] at hT
    obtain ⟨hcl, hml⟩ := (C07_all_cliques _ _ _ _ _).1 hT.1
    have hpw : (e.map (idx I)).Pairwise fun i j => i ≠ j ∧ templateAdj I.scenario I.D I.anyNonclassical i j = true :=
      (perm_pairwise (templateAdj_symm I.scenario I.D I.anyNonclassical) hp).1 (clique_pairwise hcl)
    refine ⟨?_, ?_, ?_, ⟨?_, ?_⟩⟩
    · rw [List.pairwise_map]
      exact hs.imp fun h => by omega
    · intro x hx
      obtain ⟨r, hr, rfl⟩ := List.mem_map.1 hx
      exact (cg_iff hout (he r hr).1).1 (he r hr).2
    · rw [List.pairwise_map] at hpw ⊢
      refine (hpw.and hs).imp_of_mem ?_
      intro r s hr hs' h
      exact (together_iff hout (he r hr).1 (he s hs').1 (by omega)).2 h.1
    · have : (T.length : Int) = e.length := by rw [hp.length_eq, List.length_map]
      rw [List.length_map]
      omega
    · intro p c hc
      have := shortEnough_iff.1 (by rw [← shortEnough_perm hp]; exact hT.2) p c hc
      rwa [count_party hout fun r hr => (he r hr).1] at this
  · intro h
    have hr : ∀ x ∈ m, ∃ r, x = r + 1 ∧ r < I.scenario.lexorder.length := fun x hx => allowed_rank (h.letters x hx)
    have hm : m = (m.map (· - 1)).map (· + 1) := by
      rw [List.map_map]
      conv_lhs => rw [← List.map_id m]
      apply List.map_congr_left
      intro x hx
      obtain ⟨r, rfl, _⟩ := hr x hx
      rfl
    generalize m.map (· - 1) = e at hm
    subst hm
    have hs : e.Pairwise (· < ·) := by
      have := h.sorted
      rw [List.pairwise_map] at this
      exact this.imp fun h => by omega
    have hlt : ∀ r ∈ e, r < I.scenario.lexorder.length := by
      intro r hr'
      obtain ⟨s, e1, h2⟩ := hr (r + 1) (List.mem_map.2 ⟨r, hr', rfl⟩)
      omega
    have hpw : (e.map (idx I)).Pairwise fun i j => i ≠ j ∧ templateAdj I.scenario I.D I.anyNonclassical i j = true := by
      have := h.together
      rw [List.pairwise_map] at this ⊢
      refine (this.and hs).imp_of_mem ?_
      intro r s hr hs' h
      exact (together_iff hout (hlt r hr) (hlt s hs') (by omega)).1 h.1
    obtain ⟨T, hT, hp⟩ := event_clique (blocksOk hout) (templateAdj_symm I.scenario I.D I.anyNonclassical) ((blocksOk hout).isEvent_iff.2 ⟨hlt, hpw⟩)
    have hp : T.Perm (e.map (idx I)) := hp
    refine ⟨T, ?_, e, hp, fun r hr' => ⟨hlt r hr', (cg_iff hout (hlt r hr')).2 (h.letters _ (List.mem_map.2 ⟨r, hr', rfl⟩))⟩, hs, rfl⟩
    rw [templates, List.mem_filter]
    refine ⟨(C07_all_cliques _ _ _ _ _).2 ⟨by rw [hlen]; exact hT, ?_⟩, ?_⟩
    · have h1 := h.within.length
      have h2 : T.length = e.length := by rw [hp.length_eq, List.length_map]
      rw [List.length_map] at h1
      omega
    · rw [shortEnough_perm hp, shortEnough_iff]
      intro p c hc
      rw [count_party hout hlt]
      exact h.within.party p c hc

/-- No column is repeated. -/
theorem nodup_physicalCols (hout : HasOutcomes I) (maxLen : Nat) (caps : List (Option Nat)) : (physicalCols I maxLen caps).Nodup := by
  have hB := blocksOk hout
  have hL := cg_subLists (measurements I)
  unfold physicalCols
  rw [(sortBy_perm _ _).nodup_iff]
  have e : ((boolvecs I maxLen caps).map fun v => (flatnonzero v).map (· + 1)) =
      ((templates I maxLen caps).flatMap (templateEvents I.scenario.lexorder.length ((cgLists (measurements I)).map (asBoolArray I.scenario.lexorder.length)))).map fun v => (flatnonzero v).map (· + 1) := by
    unfold boolvecs
    rw [cgGroups_eq, List.map_flatMap, List.map_flatMap]
    congr 1
    funext T
    rw [templateEvents_eq, templateEvents_eq, List.map_map, List.map_map]
    apply List.map_congr_left
    intro e he
    have hi := choice_idx hB hL (mem_choices.1 he)
    simp only [Function.comp_apply]
    congr 1
    apply sorted_ext (flatnonzero_sorted _) (flatnonzero_sorted _)
    intro x
    rw [mem_flatnonzero_boolKey, mem_flatnonzero_boolKey]
    exact ⟨fun h => ⟨(hi.2 x h.2).1, h.2⟩, fun h => ⟨by have := (hi.2 x h.2).1; unfold nOps; omega, h.2⟩⟩
  rw [e]
  refine List.Nodup.map_on ?_ (nodup_generated (m := (measurements I).length) (adj := templateAdj I.scenario I.D I.anyNonclassical) hB hL ?_ ?_)
  · intro v hv w hw hvw
    have hvw : flatnonzero v = flatnonzero w := List.map_injective_iff.2 (fun a b h => by simpa using h) hvw
    obtain ⟨_, _, ev, _, _, rfl⟩ := (mem_generated hB hL _ _).1 hv
    obtain ⟨_, _, ew, _, _, rfl⟩ := (mem_generated hB hL _ _).1 hw
    apply boolKey_congr
    intro x hx
    have h1 := mem_flatnonzero_boolKey (n := I.scenario.lexorder.length) (a := ev) (x := x)
    rw [hvw, mem_flatnonzero_boolKey] at h1
    tauto
  · intro T hT
    exact ((C07_all_cliques _ _ _ _ _).1 (List.mem_filter.1 hT).1).1
  · exact (C07_listed_once_in_order _ _ _ _).2.filter _

end Verif.Physical

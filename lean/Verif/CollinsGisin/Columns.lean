import Verif.CollinsGisin.Events
/-! Columns, raw monomials and rows. -/
namespace Verif.CollinsGisin
open Verif.Orbits
open Verif.Common
open Verif.Cliques

variable {n : Nat} {adj : Nat → Nat → Bool}

/-- The blocks of outcomes. -/
abbrev blocksOf (gs : Groups) : List (List Nat) := gs.map (·.2)

/-- Admitted outcomes of each measurement in Collins-Gisin form. -/
def cgLists (gs : Groups) : List (List Nat) := gs.map fun g => if g.1 then g.2 else g.2.dropLast

theorem cgGroups_eq (gs : Groups) : cgGroups n gs = (cgLists gs).map (asBoolArray n) := by
  unfold cgGroups cgLists
  rw [List.map_map]
  apply List.map_congr_left
  rintro ⟨c, b⟩ _
  cases c <;> simp [asBoolArray, List.map_dropLast]

theorem allGroups_eq (gs : Groups) : allGroups n gs = (blocksOf gs).map (asBoolArray n) := by
  unfold allGroups blocksOf
  rw [List.map_map]; rfl

/-- Blocks of the parties with, or without, children. -/
def flagBlocks (gs : Groups) (flag : Bool) : List (List Nat) := (gs.filter fun g => g.1 == flag).map (·.2)

theorem flagged_eq (gs : Groups) (flag : Bool) : flagged n gs flag = (flagBlocks gs flag).map (asBoolArray n) := by
  unfold flagged flagBlocks
  rw [List.map_map]; rfl

theorem flagBlocks_sublist (gs : Groups) (flag : Bool) : (flagBlocks gs flag).Sublist (blocksOf gs) :=
  List.Sublist.map _ List.filter_sublist

theorem cg_subLists (gs : Groups) : SubLists (blocksOf gs) (cgLists gs) where
  len := by simp [cgLists, blocksOf]
  sub := by
    intro t b L hb hL
    simp only [blocksOf, cgLists, List.getElem?_map, Option.map_eq_some_iff] at hb hL
    obtain ⟨g, hg, rfl⟩ := hb
    obtain ⟨g', hg', rfl⟩ := hL
    rw [hg] at hg'
    cases hg'
    split
    · exact List.Sublist.refl _
    · exact List.dropLast_sublist _

theorem all_subLists (gs : Groups) : SubLists (blocksOf gs) (blocksOf gs) where
  len := rfl
  sub := by
    intro t b L hb hL
    rw [hb] at hL
    cases hL
    exact List.Sublist.refl _

/-- No last outcome of a childless party. -/
def CG (gs : Groups) (e : List Nat) : Prop := ∀ b ∈ flagBlocks gs false, b.getLastD 0 ∉ e

theorem block_nodup {blocks : List (List Nat)} (h : BlocksOk n blocks) {b : List Nat} (hb : b ∈ blocks) : b.Nodup :=
  (List.nodup_flatten.1 h.nodup).1 b hb

theorem mem_dropLast_iff {b : List Nat} (hn : b.Nodup) (hne : b ≠ []) {r : Nat} : r ∈ b.dropLast ↔ r ∈ b ∧ r ≠ b.getLastD 0 := by
  have hsplit : b = b.dropLast ++ [b.getLastD 0] := by
    rw [List.getLastD_eq_getLast?, List.getLast?_eq_some_getLast hne]
    exact (List.dropLast_append_getLast hne).symm
  have hn' := hn
  rw [hsplit, List.nodup_append] at hn'
  constructor
  · intro hr
    exact ⟨(List.dropLast_sublist _).subset hr, hn'.2.2 r hr _ (by simp)⟩
  · rintro ⟨h1, h2⟩
    rw [hsplit] at h1
    rcases List.mem_append.1 h1 with h1 | h1
    · exact h1
    · exact absurd (List.mem_singleton.1 h1) h2

theorem mem_cgLists {gs : Groups} (h : BlocksOk n (blocksOf gs)) {e : List Nat} (he : ∀ r ∈ e, r < n) :
    (∀ r ∈ e, r ∈ (cgLists gs).getD (blockIdx (blocksOf gs) r) []) ↔ CG gs e := by
  constructor
  · intro hr b hb hmem
    obtain ⟨g, hg, rfl⟩ := List.mem_map.1 hb
    simp only [List.mem_filter, beq_iff_eq] at hg
    obtain ⟨t, ht⟩ := List.getElem?_of_mem hg.1
    have hbt : (blocksOf gs)[t]? = some g.2 := by simp [blocksOf, ht]
    have hmemb := List.mem_of_getElem? hbt
    have hlast := last_mem (h.nonempty _ hmemb)
    have := hr _ hmem
    rw [h.blockIdx_eq hbt hlast, List.getD_eq_getElem?_getD] at this
    simp only [cgLists, List.getElem?_map, ht, Option.map_some, Option.getD_some, hg.2, Bool.false_eq_true, if_false] at this
    exact ((mem_dropLast_iff (block_nodup h hmemb) (h.nonempty _ hmemb)).1 this).2 rfl
  · intro hcg r hr
    obtain ⟨b, hb, hrb⟩ := h.mem_blockIdx (he r hr)
    have hmemb := List.mem_of_getElem? hb
    simp only [blocksOf, List.getElem?_map, Option.map_eq_some_iff] at hb
    obtain ⟨g, hg, rfl⟩ := hb
    rw [List.getD_eq_getElem?_getD]
    simp only [cgLists, List.getElem?_map, blocksOf, hg, Option.map_some, Option.getD_some]
    split
    · exact hrb
    · rename_i hf
      rw [mem_dropLast_iff (block_nodup h hmemb) (h.nonempty _ hmemb)]
      refine ⟨hrb, ?_⟩
      rintro rfl
      refine hcg g.2 ?_ hr
      refine List.mem_map.2 ⟨g, ?_, rfl⟩
      simp only [List.mem_filter, beq_iff_eq]
      exact ⟨List.mem_of_getElem? hg, by simpa using hf⟩

/-- The raw monomials are the events without last outcomes of childless parties. -/
theorem mem_rawMonomials {gs : Groups} (h : BlocksOk n (blocksOf gs)) (hs : ∀ a b, adj a b = adj b a) (v : List Bool) :
    v ∈ rawMonomials n gs adj ↔ ∃ e, IsEvent (blocksOf gs) adj e ∧ CG gs e ∧ v = boolKey n e := by
  unfold rawMonomials
  rw [cgGroups_eq, mem_generated h (cg_subLists gs)]
  constructor
  · rintro ⟨T, hT, e, hTe, he, rfl⟩
    have hcl := ((C07_all_cliques _ _ _ _ _).1 hT).1
    refine ⟨e, ?_, (mem_cgLists h fun r hr => (he r hr).1).1 fun r hr => (he r hr).2, rfl⟩
    rw [h.isEvent_iff]
    exact ⟨fun r hr => (he r hr).1, (perm_pairwise hs hTe).1 (clique_pairwise hcl)⟩
  · rintro ⟨e, he, hcg, rfl⟩
    obtain ⟨T, hT, hTe⟩ := event_clique h hs he
    have hlt := (h.isEvent_iff.1 he).1
    refine ⟨T, (C07_all_cliques _ _ _ _ _).2 ⟨by simpa [blocksOf] using hT, .inl (Int.le_refl 0)⟩, e, hTe, ?_, rfl⟩
    exact fun r hr => ⟨hlt r hr, (mem_cgLists h hlt).2 hcg r hr⟩

theorem nodup_rawMonomials {gs : Groups} (h : BlocksOk n (blocksOf gs)) : (rawMonomials n gs adj).Nodup := by
  unfold rawMonomials
  rw [cgGroups_eq]
  exact nodup_generated (m := gs.length) (adj := adj) h (cg_subLists gs) (fun T hT => ((C07_all_cliques _ _ _ _ _).1 hT).1)
    (C07_listed_once_in_order _ _ _ _).2

/-- The maximal events are the joint outcomes of maximal sets of compatible measurements. -/
theorem mem_maximalEvents {gs : Groups} (hne : gs ≠ []) (h : BlocksOk n (blocksOf gs)) (hs : ∀ a b, adj a b = adj b a) (v : List Bool) :
    v ∈ maximalEvents n gs adj ↔ ∃ e, IsGlobalEvent (blocksOf gs) adj e ∧ v = boolKey n e := by
  have hpos : 1 ≤ gs.length := List.length_pos_iff.2 hne
  have hmax := (C08_maximal_cliques gs.length hpos adj hs 0 (Int.le_refl 0)).1
  unfold maximalEvents
  rw [allGroups_eq, mem_generated h (all_subLists gs)]
  constructor
  · rintro ⟨T, hT, e, hTe, he, rfl⟩
    have hcl := (hmax T).1 hT
    refine ⟨e, ⟨?_, ?_⟩, rfl⟩
    · rw [h.isEvent_iff]
      exact ⟨fun r hr => (he r hr).1, (perm_pairwise hs hTe).1 (clique_pairwise hcl.clique)⟩
    · intro i b hb r hr hev
      rw [h.isEvent_iff] at hev
      simp only [List.map_cons, List.pairwise_cons] at hev
      have hi := h.blockIdx_eq hb hr
      rw [hi] at hev
      obtain ⟨u, hu, hau⟩ := hcl.maximal i (by simpa [blocksOf] using (List.getElem?_eq_some_iff.1 hb).1)
        (fun hiT => (hev.2.1 i (hTe.mem_iff.1 hiT)).1 rfl)
      have := (hev.2.1 u (hTe.mem_iff.1 hu)).2
      rw [hs, hau] at this
      exact absurd this (by simp)
  · rintro ⟨e, he, rfl⟩
    obtain ⟨T, hT, hTe⟩ := event_clique h hs he.event
    have hlt := h.isEvent_iff.1 he.event
    refine ⟨T, (hmax T).2 ⟨by simpa [blocksOf] using hT, ?_⟩, e, hTe, ?_, rfl⟩
    · intro i hi hiT
      by_contra hcon
      push Not at hcon
      have hi' : i < (blocksOf gs).length := by simpa [blocksOf] using hi
      have hb := List.getElem?_eq_getElem hi'
      obtain ⟨r, hr⟩ := List.exists_mem_of_ne_nil _ (h.nonempty _ (List.mem_of_getElem? hb))
      refine he.maximal i _ hb r hr ?_
      rw [h.isEvent_iff]
      refine ⟨?_, ?_⟩
      · intro s hs'
        rcases List.mem_cons.1 hs' with rfl | hs'
        · exact h.lt (List.mem_of_getElem? hb) hr
        · exact hlt.1 s hs'
      · simp only [List.map_cons, List.pairwise_cons]
        refine ⟨?_, hlt.2⟩
        intro j hj
        rw [h.blockIdx_eq hb hr]
        have hjT := hTe.mem_iff.2 hj
        refine ⟨fun e => hiT (e ▸ hjT), ?_⟩
        have := hcon j hjT
        rw [hs]
        simpa using this
    · intro r hr
      refine ⟨hlt.1 r hr, ?_⟩
      obtain ⟨b, hb, hrb⟩ := h.mem_blockIdx (hlt.1 r hr)
      rw [List.getD_eq_getElem?_getD, hb]
      exact hrb

theorem nodup_maximalEvents {gs : Groups} (hne : gs ≠ []) (h : BlocksOk n (blocksOf gs)) (hs : ∀ a b, adj a b = adj b a) :
    (maximalEvents n gs adj).Nodup := by
  have hpos : 1 ≤ gs.length := List.length_pos_iff.2 hne
  have hmax := C08_maximal_cliques gs.length hpos adj hs 0 (Int.le_refl 0)
  unfold maximalEvents
  rw [allGroups_eq]
  exact nodup_generated (m := gs.length) (adj := adj) h (all_subLists gs) (fun T hT => ((hmax.1 T).1 hT).clique) hmax.2

/-! ### Columns -/

/-- Being identified by the symmetrisation. -/
def Identified (symReq : Bool) (syms : List (List Nat)) (v w : List Bool) : Prop :=
  if symReq then SameOrbit syms v w else v = w

theorem Identified.eq {K : Type} {symReq : Bool} {syms : List (List Nat)} {p : List Bool → K}
    (hi : symReq = true → Invariant n syms p) {v w : List Bool} (hv : v.length = n) (h : Identified symReq syms v w) : p v = p w := by
  unfold Identified at h
  cases symReq with
  | false => simp at h; rw [h]
  | true => exact hi rfl _ _ hv (by simpa using h)

theorem labels_length (symReq : Bool) (syms : List (List Nat)) (vecs : List (List Bool)) :
    (labels symReq syms vecs).length = vecs.length := by
  unfold labels
  split
  · simp [discoverOrbits_length]
  · simp

theorem labels_eq_iff {symReq : Bool} {syms : List (List Nat)} {vecs : List (List Bool)}
    (hG : symReq = true → IsGroup n syms) (hlen : ∀ v ∈ vecs, v.length = n) (hnd : vecs.Nodup) {i j : Nat} {v w : List Bool}
    (hv : vecs[i]? = some v) (hw : vecs[j]? = some w) :
    (labels symReq syms vecs)[i]? = (labels symReq syms vecs)[j]? ↔ Identified symReq syms v w := by
  unfold labels Identified
  cases symReq with
  | true =>
    have h1 := C16_identified_iff_same_orbit (hG rfl) vecs hlen hnd i j v w hv hw
    have h2 := C16_identified_iff_same_orbit (hG rfl) vecs hlen hnd j i w v hw hv
    obtain ⟨⟨k, hk, _⟩, hiff⟩ := h1
    obtain ⟨⟨l, hl, _⟩, _⟩ := h2
    simp only [if_true]
    rw [← hiff]
    simp [List.getElem?_map, hk, hl]
  | false =>
    obtain ⟨hi, rfl⟩ := List.getElem?_eq_some_iff.1 hv
    obtain ⟨hj, rfl⟩ := List.getElem?_eq_some_iff.1 hw
    simp only [Bool.false_eq_true, if_false, List.getElem?_range hi, List.getElem?_range hj, Option.some.injEq]
    exact hnd.getElem_inj_iff.symm

theorem representatives_mem {symReq : Bool} {syms : List (List Nat)} {vecs : List (List Bool)} {w : List Bool}
    (hw : w ∈ representatives symReq syms vecs) : w ∈ vecs := by
  unfold representatives npUniquePos at hw
  rw [List.map_map] at hw
  obtain ⟨l, hl, rfl⟩ := List.mem_map.1 hw
  rw [mem_npUnique] at hl
  have hlt := List.idxOf_lt_length_iff.2 hl
  rw [labels_length] at hlt
  simp only [Function.comp]
  rw [List.getD_eq_getElem _ _ hlt]
  exact List.getElem_mem hlt

/-- The column of a vector holds a vector identified with it. -/
theorem columnOf_spec {symReq : Bool} {syms : List (List Nat)} {vecs : List (List Bool)}
    (hG : symReq = true → IsGroup n syms) (hlen : ∀ v ∈ vecs, v.length = n) (hnd : vecs.Nodup) {v : List Bool} (hv : v ∈ vecs) :
    ∃ c w, columnOf symReq syms vecs v = some c ∧ (representatives symReq syms vecs)[c]? = some w ∧ w ∈ vecs ∧
      Identified symReq syms v w := by
  have hi : vecs.idxOf v < vecs.length := List.idxOf_lt_length_iff.2 hv
  have hvi : vecs[vecs.idxOf v]? = some v := by
    rw [List.getElem?_eq_getElem hi]; simp
  have hidx : vecs.idxOf? v = some (vecs.idxOf v) := by
    rw [List.idxOf?_eq_some_iff]
    refine ⟨hi, by simp, ?_⟩
    intro j hj
    have := List.not_of_lt_findIdx (xs := vecs) (p := (· == v)) hj
    simpa using this
  have hl : vecs.idxOf v < (labels symReq syms vecs).length := by rw [labels_length]; exact hi
  have hmem : (labels symReq syms vecs)[vecs.idxOf v] ∈ npUnique (labels symReq syms vecs) := mem_npUnique.2 (List.getElem_mem hl)
  have hc := List.idxOf_lt_length_iff.2 hmem
  have hk : (labels symReq syms vecs).idxOf (labels symReq syms vecs)[vecs.idxOf v] < (labels symReq syms vecs).length :=
    List.idxOf_lt_length_iff.2 (List.getElem_mem hl)
  have hk' := hk
  rw [labels_length] at hk'
  refine ⟨(npUnique (labels symReq syms vecs)).idxOf (labels symReq syms vecs)[vecs.idxOf v],
    vecs[(labels symReq syms vecs).idxOf (labels symReq syms vecs)[vecs.idxOf v]], ?_, ?_, List.getElem_mem hk', ?_⟩
  · unfold columnOf npUniqueInv
    rw [hidx]
    simp [List.getElem?_eq_getElem hl]
  · unfold representatives npUniquePos
    rw [List.getElem?_map, List.getElem?_map, List.getElem?_eq_getElem hc]
    simp only [Option.map_some, Option.some.injEq, List.getElem_idxOf]
    rw [List.getD_eq_getElem _ _ hk']
  · rw [← labels_eq_iff hG hlen hnd hvi (List.getElem?_eq_getElem hk')]
    rw [List.getElem?_eq_getElem hl, List.getElem?_eq_getElem hk]
    simp

end Verif.CollinsGisin

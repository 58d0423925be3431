import Verif.CollinsGisin.Columns
/-! Values of the generated rows. -/
namespace Verif.CollinsGisin
open Verif.Orbits
open Verif.Common

variable {n : Nat} {adj : Nat → Nat → Bool}

theorem mapM_some_forall₂ {α β : Type} {f : α → Option β} {Q : α → β → Prop} {l : List α} (h : ∀ a ∈ l, ∃ b, f a = some b ∧ Q a b) :
    ∃ r, l.mapM f = some r ∧ List.Forall₂ Q l r := by
  induction l with
  | nil => exact ⟨[], rfl, .nil⟩
  | cons a l ih =>
    obtain ⟨b, hb, hq⟩ := h a (by simp)
    obtain ⟨r, hr, hf⟩ := ih fun c hc => h c (List.mem_cons_of_mem _ hc)
    exact ⟨b :: r, by simp [List.mapM_cons, hb, hr], .cons hq hf⟩

theorem forall₂_right {α β : Type} {Q : α → β → Prop} {l : List α} {r : List β} (h : List.Forall₂ Q l r) {b : β} (hb : b ∈ r) :
    ∃ a ∈ l, Q a b := by
  induction h with
  | nil => simp at hb
  | @cons a c l r h1 _ ih =>
    rcases List.mem_cons.1 hb with rfl | hb
    · exact ⟨a, by simp, h1⟩
    · obtain ⟨a', ha, hq⟩ := ih hb
      exact ⟨a', List.mem_cons_of_mem _ ha, hq⟩

/-- The blocks of `bs` whose last outcome is in the event. -/
def critBlocks (bs : List (List Nat)) (e : List Nat) : List (List Nat) := bs.filter fun b => e.contains (b.getLastD 0)

/-- The event without these last outcomes. -/
def absent (bs : List (List Nat)) (e : List Nat) : List Nat := e.filter fun r => !(lasts bs).contains r

variable {blocks : List (List Nat)}

theorem critBlocks_sublist (bs : List (List Nat)) (e : List Nat) : (critBlocks bs e).Sublist bs := List.filter_sublist

theorem mem_lasts_critBlocks {bs : List (List Nat)} {e : List Nat} {x : Nat} : x ∈ lasts (critBlocks bs e) ↔ x ∈ e ∧ x ∈ lasts bs := by
  unfold lasts critBlocks
  simp only [List.mem_map, List.mem_filter, List.contains_iff_mem]
  constructor
  · rintro ⟨b, ⟨hb, he⟩, rfl⟩; exact ⟨he, b, hb, rfl⟩
  · rintro ⟨he, b, hb, rfl⟩; exact ⟨b, ⟨hb, he⟩, rfl⟩

theorem crit_eq (h : BlocksOk n blocks) {bs : List (List Nat)} (hsub : bs.Sublist blocks) {e : List Nat} :
    flatnonzero (critical n (bs.map (asBoolArray n)) (boolKey n e)) = lasts (critBlocks bs e) := by
  rw [critical_eq fun b hb => h.nonempty b (hsub.subset hb)]
  apply sorted_ext (flatnonzero_sorted _) (lasts_sorted h ((critBlocks_sublist bs e).trans hsub))
  intro x
  rw [mem_flatnonzero_boolKey, mem_lasts_critBlocks]
  simp only [List.mem_filter, List.contains_iff_mem]
  constructor
  · exact fun hx => hx.2
  · exact fun hx => ⟨lasts_lt h (fun b hb => hsub.subset hb) x hx.2, hx⟩

theorem critical_any (h : BlocksOk n blocks) {bs : List (List Nat)} (hsub : bs.Sublist blocks) {e : List Nat} :
    (critical n (bs.map (asBoolArray n)) (boolKey n e)).any id = true ↔ critBlocks bs e ≠ [] := by
  have key : ∀ v : List Bool, v.any id = true ↔ flatnonzero v ≠ [] := by
    intro v
    constructor
    · intro hv hn
      obtain ⟨x, hx, hxt⟩ := List.any_eq_true.1 hv
      obtain ⟨k, hk, rfl⟩ := List.getElem_of_mem hx
      have : k ∈ flatnonzero v := by
        unfold flatnonzero
        simp only [List.mem_filter, List.mem_range]
        exact ⟨hk, by rw [List.getD_eq_getElem _ _ hk]; exact hxt⟩
      rw [hn] at this
      simp at this
    · intro hn
      obtain ⟨k, hk⟩ := List.exists_mem_of_ne_nil _ hn
      unfold flatnonzero at hk
      simp only [List.mem_filter, List.mem_range] at hk
      rw [List.getD_eq_getElem _ _ hk.1] at hk
      exact List.any_eq_true.2 ⟨_, List.getElem_mem hk.1, hk.2⟩
  rw [key, crit_eq h hsub]
  unfold lasts
  simp

/-- An event is its critical outcomes and the others. -/
theorem absent_append_perm (h : BlocksOk n blocks) {bs : List (List Nat)} (hsub : bs.Sublist blocks) {e : List Nat}
    (hn : e.Nodup) : (absent bs e ++ lasts (critBlocks bs e)).Perm e := by
  have hnd : (lasts (critBlocks bs e)).Nodup :=
    List.Pairwise.imp (fun h => Nat.ne_of_lt h) (lasts_sorted h ((critBlocks_sublist bs e).trans hsub))
  rw [List.perm_ext_iff_of_nodup]
  · intro x
    rw [List.mem_append, mem_lasts_critBlocks]
    simp only [absent, List.mem_filter, Bool.not_eq_true', ← Bool.not_eq_true, List.contains_iff_mem]
    by_cases hx : x ∈ lasts bs <;> simp [hx]
  · rw [List.nodup_append]
    refine ⟨List.Nodup.filter _ hn, hnd, ?_⟩
    intro a ha b hb hab
    subst hab
    rw [mem_lasts_critBlocks] at hb
    simp only [absent, List.mem_filter, Bool.not_eq_true', ← Bool.not_eq_true, List.contains_iff_mem] at ha
    exact ha.2 hb.2
  · exact hn

theorem forall₂_idx (h : BlocksOk n blocks) {bs : List (List Nat)} (hb : ∀ b ∈ bs, b ∈ blocks) {ch ch' : List Nat}
    (h1 : List.Forall₂ (fun r b => r ∈ b) ch bs) (h2 : List.Forall₂ (fun r b => r ∈ b) ch' bs) :
    ch.map (blockIdx blocks) = ch'.map (blockIdx blocks) ∧ ∀ r ∈ ch, r < n := by
  induction h1 generalizing ch' with
  | nil => cases h2; simp
  | @cons r b ch bs hr _ ih =>
    cases h2 with
    | @cons r' _ ch' _ hr' ht' =>
      obtain ⟨i, hi⟩ := List.getElem?_of_mem (hb b (by simp))
      have h3 := ih (fun c hc => hb c (List.mem_cons_of_mem _ hc)) ht'
      refine ⟨by simp [h3.1, h.blockIdx_eq hi hr, h.blockIdx_eq hi hr'], ?_⟩
      intro s hs
      rcases List.mem_cons.1 hs with rfl | hs
      · exact h.lt (hb b (by simp)) hr
      · exact h3.2 s hs

theorem crit_ext (h : BlocksOk n blocks) (hs : ∀ a b, adj a b = adj b a) {bs : List (List Nat)} (hsub : bs.Sublist blocks) {e : List Nat}
    (he : IsEvent blocks adj e) : Ext blocks adj (absent bs e) (critBlocks bs e) where
  mem := fun b hb => hsub.subset ((critBlocks_sublist bs e).subset hb)
  ev := by
    intro ch hch
    have hmem : ∀ b ∈ critBlocks bs e, b ∈ blocks := fun b hb => hsub.subset ((critBlocks_sublist bs e).subset hb)
    have h1 := forall₂_idx h hmem hch (lasts_forall h hmem)
    have h2 := h.isEvent_perm hs (absent_append_perm h hsub (h.event_nodup he)).symm he
    refine h.isEvent_of_map ?_ ?_ h2
    · intro r hr
      rcases List.mem_append.1 hr with hr | hr
      · exact (h.isEvent_iff.1 h2).1 r (List.mem_append_left _ hr)
      · exact h1.2 r hr
    · rw [List.map_append, List.map_append, h1.1]

/-- Each signed combination is a choice of non-last outcomes of some of the measurements. -/
theorem mem_combos {bs : List (List Nat)} {x : Bool × List Nat} (hx : x ∈ combos bs) :
    ∃ bs', bs'.Sublist bs ∧ List.Forall₂ (fun r b => r ∈ b.dropLast) x.2 bs' := by
  induction bs using List.reverseRecOn generalizing x with
  | nil =>
    simp only [combos, List.foldl_nil, List.mem_singleton] at hx
    subst hx
    exact ⟨[], .slnil, .nil⟩
  | append_singleton bs b ih =>
    have hcombo : combos (bs ++ [b]) = combine (combos bs) (alt b) := by simp [combos, List.foldl_append]
    rw [hcombo] at hx
    simp only [combine, List.mem_flatMap, List.mem_map, alt, List.mem_cons] at hx
    obtain ⟨y, hy, z, hz, rfl⟩ := hx
    obtain ⟨bs', hsub, hf⟩ := ih hy
    rcases hz with rfl | ⟨r, hr, rfl⟩
    · exact ⟨bs', hsub.trans (by simp), by simpa using hf⟩
    · exact ⟨bs' ++ [b], hsub.append (List.Sublist.refl _), Forall₂.snoc hf hr⟩

/-- The combinations complete the rest of the event to events. -/
theorem combos_event (h : BlocksOk n blocks) (hs : ∀ a b, adj a b = adj b a) {bs : List (List Nat)} (hsub : bs.Sublist blocks) {e : List Nat}
    (he : IsEvent blocks adj e) {x : Bool × List Nat} (hx : x ∈ combos (critBlocks bs e)) :
    IsEvent blocks adj (absent bs e ++ x.2) ∧ ∀ r ∈ x.2, ∃ b ∈ bs, r ∈ b.dropLast := by
  obtain ⟨bs', hsub', hf⟩ := mem_combos hx
  have hmem : ∀ b ∈ bs', b ∈ blocks := fun b hb =>
    hsub.subset ((critBlocks_sublist bs e).subset (hsub'.subset hb))
  have hf' : List.Forall₂ (fun r b => r ∈ b) x.2 bs' :=
    hf.imp fun r b hr => (List.dropLast_sublist b).subset hr
  have h1 := forall₂_idx h hmem hf' (lasts_forall h hmem)
  have h2 := h.isEvent_perm hs (absent_append_perm h hsub (h.event_nodup he)).symm he
  have h3 : IsEvent blocks adj (absent bs e ++ lasts bs') :=
    h.isEvent_sublist ((List.Sublist.refl _).append (hsub'.map _)) h2
  refine ⟨h.isEvent_of_map ?_ (by rw [List.map_append, List.map_append, h1.1]) h3, ?_⟩
  · intro r hr
    rcases List.mem_append.1 hr with hr | hr
    · exact (h.isEvent_iff.1 h2).1 r (List.mem_append_left _ hr)
    · exact h1.2 r hr
  · intro r hr
    have : ∀ {l : List Nat} {m : List (List Nat)}, List.Forall₂ (fun r b => r ∈ b.dropLast) l m → r ∈ l → ∃ b ∈ m, r ∈ b.dropLast := by
      intro l m hlm
      induction hlm with
      | nil => simp
      | @cons a b l m hab _ ih =>
        intro hr
        rcases List.mem_cons.1 hr with rfl | hr
        · exact ⟨b, by simp, hab⟩
        · obtain ⟨c, hc, hrc⟩ := ih hr
          exact ⟨c, List.mem_cons_of_mem _ hc, hrc⟩
    obtain ⟨b, hb, hrb⟩ := this hf hr
    exact ⟨b, (critBlocks_sublist bs e).subset (hsub'.subset hb), hrb⟩

/-- The terms of an event sum up to its probability. -/
theorem terms_value {K : Type} [Ring K] (h : BlocksOk n blocks) (hs : ∀ a b, adj a b = adj b a) {p : List Bool → K}
    (hp : Marginalises n blocks adj p) {bs : List (List Nat)} (hsub : bs.Sublist blocks) {e : List Nat}
    (he : IsEvent blocks adj e) (hne : critBlocks bs e ≠ []) :
    terms n (bs.map (asBoolArray n)) (boolKey n e) =
      some ((combos (critBlocks bs e)).map fun x => (x.1, boolKey n (absent bs e ++ x.2))) ∧
    (((combos (critBlocks bs e)).map fun x => (x.1, boolKey n (absent bs e ++ x.2))).map fun t : Bool × List Bool => (sg t.1 : K) * p t.2).sum =
      p (boolKey n e) := by
  refine ⟨terms_eq h hsub (fun b hb => (critBlocks_sublist bs e).subset hb) hne (crit_eq h hsub), ?_⟩
  have h1 := incl_excl h hs hp (critBlocks bs e) _ (crit_ext h hs hsub he)
  rw [boolKey_perm (absent_append_perm h hsub (h.event_nodup he))] at h1
  rw [← h1, List.map_map]
  rfl

theorem toRow_value {K : Type} [Ring K] {col : List Bool → Option Nat} {x : Nat → K} {p : List Bool → K} {ts : List (Bool × List Bool)}
    (h : ∀ t ∈ ts, ∃ c, col t.2 = some c ∧ x c = p t.2) :
    ∃ row, toRow col ts = some row ∧ rowValue x row = (ts.map fun t => (sg t.1 : K) * p t.2).sum := by
  obtain ⟨row, hrow, hf⟩ := mapM_some_forall₂ (f := fun t : Bool × List Bool => (col t.2).map fun c => ((if t.1 then -1 else 1 : Int), c))
    (Q := fun t u => ((u.1 : Int) : K) * x u.2 = sg t.1 * p t.2) (l := ts) (by
      intro t ht
      obtain ⟨c, hc, hx⟩ := h t ht
      refine ⟨((if t.1 then -1 else 1 : Int), c), by simp [hc], ?_⟩
      simp only [hx]
      congr 1
      cases t.1 <;> simp [sg])
  refine ⟨row, hrow, ?_⟩
  unfold rowValue
  clear hrow h
  induction hf with
  | nil => rfl
  | cons h1 _ ih => simp only [List.map_cons, List.sum_cons, ih, h1]

theorem cg_of_absent {gs : Groups} (h : BlocksOk n (blocksOf gs)) {e l : List Nat}
    (hl : ∀ r ∈ l, ∃ b ∈ flagBlocks gs false, r ∈ b.dropLast) : CG gs (absent (flagBlocks gs false) e ++ l) := by
  intro b hb hmem
  rcases List.mem_append.1 hmem with hm | hm
  · simp only [absent, List.mem_filter, Bool.not_eq_true', ← Bool.not_eq_true, List.contains_iff_mem] at hm
    exact hm.2 (List.mem_map.2 ⟨b, hb, rfl⟩)
  · obtain ⟨c, hc, hrc⟩ := hl _ hm
    have hbb := (flagBlocks_sublist gs false).subset hb
    have hcb := (flagBlocks_sublist gs false).subset hc
    obtain ⟨i, hi⟩ := List.getElem?_of_mem hbb
    obtain ⟨j, hj⟩ := List.getElem?_of_mem hcb
    have hij := h.idx_unique hi hj (last_mem (h.nonempty b hbb)) ((List.dropLast_sublist c).subset hrc)
    subst hij
    rw [hi] at hj
    cases hj
    exact ((mem_dropLast_iff (block_nodup h hbb) (h.nonempty b hbb)).1 hrc).2 rfl

theorem flagBlocks_disjoint {gs : Groups} (h : BlocksOk n (blocksOf gs)) {b c : List Nat} (hb : b ∈ flagBlocks gs false)
    (hc : c ∈ flagBlocks gs true) {r : Nat} (hrb : r ∈ b) (hrc : r ∈ c) : False := by
  obtain ⟨g, hg, rfl⟩ := List.mem_map.1 hb
  obtain ⟨g', hg', rfl⟩ := List.mem_map.1 hc
  simp only [List.mem_filter, beq_iff_eq] at hg hg'
  obtain ⟨i, hi⟩ := List.getElem?_of_mem hg.1
  obtain ⟨j, hj⟩ := List.getElem?_of_mem hg'.1
  have hij := h.idx_unique (i := i) (j := j) (by simp [blocksOf, hi]) (by simp [blocksOf, hj]) hrb hrc
  subst hij
  rw [hi] at hj
  cases hj
  rw [hg.2] at hg'
  exact absurd hg'.2 (by simp)

theorem cg_of_nonadjusting {gs : Groups} (h : BlocksOk n (blocksOf gs)) {e l : List Nat} (he : CG gs e)
    (hl : ∀ r ∈ l, ∃ b ∈ flagBlocks gs true, r ∈ b.dropLast) : CG gs (absent (flagBlocks gs true) e ++ l) := by
  intro b hb hmem
  rcases List.mem_append.1 hmem with hm | hm
  · exact he b hb (List.mem_filter.1 hm).1
  · obtain ⟨c, hc, hrc⟩ := hl _ hm
    exact flagBlocks_disjoint h hb hc (last_mem (h.nonempty b ((flagBlocks_sublist gs false).subset hb)))
      ((List.dropLast_sublist c).subset hrc)

end Verif.CollinsGisin

import Mathlib.Data.List.Forall2
import Verif.CollinsGisin.Terms
import Verif.Cliques.Props
import Verif.Orbits.Props
/-! The generated monomials and maximal events. -/
namespace Verif.CollinsGisin
open Verif.Orbits
open Verif.Common
open Verif.Cliques

/-- All choices of one entry per list. -/
def choices (Ls : List (List Nat)) : List (List Nat) :=
  Ls.foldl (fun acc L => acc.flatMap fun a => L.map fun r => a ++ [r]) [[]]

theorem choices_snoc (Ls : List (List Nat)) (L : List Nat) :
    choices (Ls ++ [L]) = (choices Ls).flatMap fun a => L.map fun r => a ++ [r] := by
  simp [choices, List.foldl_append]

theorem mem_choices {Ls : List (List Nat)} {e : List Nat} : e ∈ choices Ls ↔ List.Forall₂ (fun r L => r ∈ L) e Ls := by
  induction Ls using List.reverseRecOn generalizing e with
  | nil => simp [choices]
  | append_singleton Ls L ih =>
    rw [choices_snoc]
    simp only [List.mem_flatMap, List.mem_map]
    constructor
    · rintro ⟨a, ha, r, hr, rfl⟩
      exact Forall₂.snoc (ih.1 ha) hr
    · intro h
      have hlen := h.length_eq
      rcases List.eq_nil_or_concat e with rfl | ⟨a, r, rfl⟩
      · simp at hlen
      · simp only [List.concat_eq_append] at h hlen
        have hlen' : a.length = Ls.length := by simpa using hlen
        have h1 := List.forall₂_take_append _ Ls [L] h
        have h2 := List.forall₂_drop_append _ Ls [L] h
        rw [← hlen'] at h1 h2
        simp only [List.take_left', List.drop_left'] at h1 h2
        exact ⟨a, ih.2 h1, r, by simpa using h2, by simp⟩

theorem nodup_choices {Ls : List (List Nat)} (h : ∀ L ∈ Ls, L.Nodup) : (choices Ls).Nodup := by
  induction Ls using List.reverseRecOn with
  | nil => simp [choices]
  | append_singleton Ls L ih =>
    rw [choices_snoc, List.nodup_flatMap]
    refine ⟨?_, ?_⟩
    · intro a _
      refine List.Nodup.map ?_ (h L (by simp))
      intro x y hxy
      simpa using hxy
    · refine List.Pairwise.imp ?_ (ih fun M hM => h M (by simp [hM]))
      intro a b hab
      simp only [Function.onFun, List.disjoint_left, List.mem_map]
      rintro x ⟨r, _, rfl⟩ ⟨s, _, hs⟩
      have := List.append_inj_left' hs rfl
      exact hab this.symm

theorem outerOr_choices (n : Nat) (E : List (List Nat)) (L : List Nat) :
    outerOr (E.map (boolKey n)) (asBoolArray n L) = (E.flatMap fun a => L.map fun r => a ++ [r]).map (boolKey n) := by
  unfold outerOr asBoolArray
  rw [List.flatMap_map, List.map_flatMap]
  congr 1
  funext a
  simp [List.map_map, Function.comp_def, bvOr_boolKey]

theorem reduce_choices (n : Nat) {Ls : List (List Nat)} (hne : Ls ≠ []) :
    reduce1 outerOr [] (Ls.map (asBoolArray n)) = (choices Ls).map (boolKey n) := by
  cases Ls with
  | nil => exact absurd rfl hne
  | cons L Ls =>
    have : ∀ (E : List (List Nat)) (Ls : List (List Nat)), (Ls.map (asBoolArray n)).foldl outerOr (E.map (boolKey n)) =
        (Ls.foldl (fun acc L => acc.flatMap fun a => L.map fun r => a ++ [r]) E).map (boolKey n) := by
      intro E Ls
      induction Ls generalizing E with
      | nil => rfl
      | cons L Ls ih => simp only [List.map_cons, List.foldl_cons]; rw [outerOr_choices, ih]
    simp only [List.map_cons, reduce1, choices, List.foldl_cons, List.flatMap_cons, List.flatMap_nil, List.append_nil, List.nil_append]
    rw [← this]
    simp [asBoolArray, List.map_map, Function.comp_def]

/-- Template in the order of the code. -/
def desc (T : List Nat) : List Nat := sortBy (fun a b => decide (b ≤ a)) T

theorem desc_perm (T : List Nat) : (desc T).Perm T := sortBy_perm _ _

theorem templateEvents_eq (n : Nat) (Ls : List (List Nat)) (T : List Nat) :
    templateEvents n (Ls.map (asBoolArray n)) T = (choices ((desc T).map fun t => Ls.getD t [])).map (boolKey n) := by
  unfold templateEvents
  cases T with
  | nil => simp [desc, sortBy, choices, replicate_eq]
  | cons t T =>
    simp only [List.isEmpty_cons, Bool.false_eq_true, if_false]
    have hne : ((desc (t :: T)).map fun t => Ls.getD t []) ≠ [] := by
      intro h
      have := (desc_perm (t :: T)).length_eq
      simp at h
      rw [h] at this
      simp at this
    rw [← reduce_choices n hne, List.map_map]
    congr 1
    apply List.map_congr_left
    intro s _
    simp only [Function.comp, List.getD_eq_getElem?_getD, List.getElem?_map]
    cases Ls[s]? <;> rfl

variable {n : Nat} {blocks : List (List Nat)} {adj : Nat → Nat → Bool}

/-- Lists of admitted outcomes of each measurement. -/
structure SubLists (blocks Ls : List (List Nat)) : Prop where
  len : Ls.length = blocks.length
  sub : ∀ (t : Nat) (b L : List Nat), blocks[t]? = some b → Ls[t]? = some L → L.Sublist b

theorem SubLists.block (hL : SubLists blocks Ls) {t r : Nat} (hr : r ∈ Ls.getD t []) : ∃ b, blocks[t]? = some b ∧ r ∈ b := by
  rw [List.getD_eq_getElem?_getD] at hr
  rcases hLt : Ls[t]? with _ | L
  · rw [hLt] at hr; simp at hr
  · rw [hLt] at hr
    have ht := (List.getElem?_eq_some_iff.1 hLt).1
    rw [hL.len] at ht
    exact ⟨_, List.getElem?_eq_getElem ht, (hL.sub t _ L (List.getElem?_eq_getElem ht) hLt).subset hr⟩

theorem SubLists.idx (h : BlocksOk n blocks) (hL : SubLists blocks Ls) {t r : Nat} (hr : r ∈ Ls.getD t []) :
    blockIdx blocks r = t ∧ r < n := by
  obtain ⟨b, hb, hrb⟩ := hL.block hr
  exact ⟨h.blockIdx_eq hb hrb, h.lt (List.mem_of_getElem? hb) hrb⟩

theorem choice_idx (h : BlocksOk n blocks) (hL : SubLists blocks Ls) {e T : List Nat}
    (hc : List.Forall₂ (fun r L => r ∈ L) e (T.map fun t => Ls.getD t [])) :
    e.map (blockIdx blocks) = T ∧ (∀ r ∈ e, r < n ∧ r ∈ Ls.getD (blockIdx blocks r) []) := by
  rw [List.forall₂_map_right_iff] at hc
  induction hc with
  | nil => simp
  | @cons r t e T hr _ ih =>
    have h1 := hL.idx h hr
    refine ⟨by simp [h1.1, ih.1], ?_⟩
    intro s hs
    rcases List.mem_cons.1 hs with rfl | hs
    · exact ⟨h1.2, by rw [h1.1]; exact hr⟩
    · exact ih.2 s hs

theorem choice_of {Ls : List (List Nat)} (e : List Nat) (he : ∀ r ∈ e, r ∈ Ls.getD (blockIdx blocks r) []) {T : List Nat}
    (hT : T.Perm (e.map (blockIdx blocks))) :
    ∃ e', e'.Perm e ∧ List.Forall₂ (fun r L => r ∈ L) e' (T.map fun t => Ls.getD t []) := by
  have h2 : List.Forall₂ (fun t r => r ∈ Ls.getD t []) (e.map (blockIdx blocks)) e := by
    rw [List.forall₂_map_left_iff, List.forall₂_same]
    exact he
  obtain ⟨w, hw1, hw2⟩ := List.perm_comp_forall₂ hT h2
  refine ⟨w, hw2, ?_⟩
  rw [List.forall₂_map_right_iff]
  exact hw1.flip

theorem perm_pairwise {T T' : List Nat} (hs : ∀ a b, adj a b = adj b a) (hp : T.Perm T') :
    (T.Pairwise fun i j => i ≠ j ∧ adj i j = true) ↔ T'.Pairwise fun i j => i ≠ j ∧ adj i j = true := by
  apply hp.pairwise_iff
  rintro x y ⟨hxy, ha⟩
  exact ⟨hxy.symm, by rw [hs]; exact ha⟩

theorem clique_pairwise {m : Nat} {T : List Nat} (hT : IsClique m adj T) : T.Pairwise fun i j => i ≠ j ∧ adj i j = true :=
  List.Pairwise.imp (fun h => ⟨Nat.ne_of_lt h.1, h.2⟩) (List.Pairwise.and hT.sorted hT.adjacent)

/-- Increasing rearrangement. -/
theorem exists_sorted (T : List Nat) (hn : T.Nodup) : ∃ T' : List Nat, T'.Perm T ∧ T'.Pairwise (· < ·) := by
  refine ⟨sortBy (fun a b => decide (a ≤ b)) T, sortBy_perm _ _, ?_⟩
  have h1 := sortBy_sorted (fun a b : Nat => decide (a ≤ b)) (fun a b => by simp; omega) (fun a b c => by simp; omega) T
  have h2 : (sortBy (fun a b : Nat => decide (a ≤ b)) T).Nodup := (sortBy_perm _ _).nodup_iff.2 hn
  refine List.Pairwise.imp ?_ (List.Pairwise.and h1 h2)
  rintro a b ⟨h3, h4⟩
  have : a ≤ b := by simpa using h3
  omega

theorem event_clique (h : BlocksOk n blocks) (hs : ∀ a b, adj a b = adj b a) {e : List Nat} (he : IsEvent blocks adj e) :
    ∃ T, IsClique blocks.length adj T ∧ T.Perm (e.map (blockIdx blocks)) := by
  rw [h.isEvent_iff] at he
  have hnd : (e.map (blockIdx blocks)).Nodup := List.Pairwise.imp (fun h => h.1) he.2
  obtain ⟨T, hT, hTs⟩ := exists_sorted _ hnd
  refine ⟨T, ⟨hTs, ?_, ?_⟩, hT⟩
  · intro x hx
    obtain ⟨r, hr, rfl⟩ := List.mem_map.1 (hT.mem_iff.1 hx)
    exact h.blockIdx_lt (he.1 r hr)
  · have := (perm_pairwise hs hT).2 he.2
    exact List.Pairwise.imp (fun h => h.2) this

/-- Vectors generated from a list of cliques. -/
theorem mem_generated (h : BlocksOk n blocks) (hL : SubLists blocks Ls) (cl : List (List Nat)) (v : List Bool) :
    v ∈ cl.flatMap (templateEvents n (Ls.map (asBoolArray n))) ↔
      ∃ T ∈ cl, ∃ e, T.Perm (e.map (blockIdx blocks)) ∧ (∀ r ∈ e, r < n ∧ r ∈ Ls.getD (blockIdx blocks r) []) ∧
        v = boolKey n e := by
  simp only [List.mem_flatMap]
  apply exists_congr
  intro T
  apply and_congr_right
  intro _
  rw [templateEvents_eq, List.mem_map]
  constructor
  · rintro ⟨e, he, rfl⟩
    have := choice_idx h hL (mem_choices.1 he)
    exact ⟨e, by rw [this.1]; exact (desc_perm T).symm, this.2, rfl⟩
  · rintro ⟨e, hT, he, rfl⟩
    obtain ⟨e', hp, hc⟩ := choice_of (Ls := Ls) e (fun r hr => (he r hr).2) ((desc_perm T).trans hT)
    exact ⟨e', mem_choices.2 hc, boolKey_perm hp⟩

theorem same_set_idx {e e' : List Nat} (hlt : ∀ r ∈ e, r < n) (hlt' : ∀ r ∈ e', r < n) (hv : boolKey n e = boolKey n e') :
    ∀ x, x ∈ e ↔ x ∈ e' := by
  intro x
  constructor
  · intro hx; exact (boolKey_inj hv (hlt x hx)).1 hx
  · intro hx; exact (boolKey_inj hv (hlt' x hx)).2 hx

theorem sorted_ext {T T' : List Nat} (h1 : T.Pairwise (· < ·)) (h2 : T'.Pairwise (· < ·)) (h : ∀ x, x ∈ T ↔ x ∈ T') : T = T' := by
  have n1 : T.Nodup := List.Pairwise.imp (fun h => Nat.ne_of_lt h) h1
  have n2 : T'.Nodup := List.Pairwise.imp (fun h => Nat.ne_of_lt h) h2
  exact ((List.perm_ext_iff_of_nodup n1 n2).2 h).eq_of_pairwise (le := (· < ·)) (fun a b _ _ hab hba => by omega) h1 h2

theorem nodup_generated (h : BlocksOk n blocks) (hL : SubLists blocks Ls) {m : Nat} {cl : List (List Nat)} (hcl : ∀ T ∈ cl, IsClique m adj T)
    (hnd : cl.Nodup) : (cl.flatMap (templateEvents n (Ls.map (asBoolArray n)))).Nodup := by
  have hblock : ∀ b ∈ blocks, b.Nodup := fun b hb => (List.nodup_flatten.1 h.nodup).1 b hb
  rw [List.nodup_flatMap]
  refine ⟨?_, ?_⟩
  · intro T hT
    rw [templateEvents_eq]
    refine List.Nodup.map_on ?_ (nodup_choices ?_)
    · intro e he e' he' hv
      have h1 := choice_idx h hL (mem_choices.1 he)
      have h2 := choice_idx h hL (mem_choices.1 he')
      have hset := same_set_idx (fun r hr => (h1.2 r hr).1) (fun r hr => (h2.2 r hr).1) hv
      have hlen : e.length = e'.length := by
        rw [← List.length_map (blockIdx blocks), h1.1, ← h2.1, List.length_map]
      have hTn : (desc T).Nodup :=
        (desc_perm T).nodup_iff.2 (List.Pairwise.imp (fun h => Nat.ne_of_lt h) (hcl T hT).sorted)
      apply List.ext_getElem hlen
      intro k hk hk'
      obtain ⟨j, hj, hj'⟩ := List.getElem_of_mem ((hset _).1 (List.getElem_mem hk))
      have key1 : blockIdx blocks e[k] = (desc T)[k]'(by rw [← h1.1]; simpa using hk) := by
        simp only [← h1.1, List.getElem_map]
      have key2 : blockIdx blocks e'[j] = (desc T)[j]'(by rw [← h2.1]; simpa using hj) := by
        simp only [← h2.1, List.getElem_map]
      rw [hj', key1] at key2
      have : k = j := hTn.getElem_inj_iff.1 key2
      subst this
      exact hj'.symm
    · intro L hL'
      obtain ⟨t, _, rfl⟩ := List.mem_map.1 hL'
      rw [List.getD_eq_getElem?_getD]
      rcases hLt : Ls[t]? with _ | L
      · simp
      · have ht := (List.getElem?_eq_some_iff.1 hLt).1
        rw [hL.len] at ht
        exact List.Nodup.sublist (hL.sub t _ L (List.getElem?_eq_getElem ht) hLt) (hblock _ (List.getElem_mem ht))
  · refine List.Pairwise.imp_of_mem ?_ hnd
    intro T T' hT hT' hne
    simp only [Function.onFun, List.disjoint_left]
    intro v hv hv'
    rw [templateEvents_eq, List.mem_map] at hv hv'
    obtain ⟨e, he, rfl⟩ := hv
    obtain ⟨e', he', hvv⟩ := hv'
    have h1 := choice_idx h hL (mem_choices.1 he)
    have h2 := choice_idx h hL (mem_choices.1 he')
    have hset := same_set_idx (fun r hr => (h1.2 r hr).1) (fun r hr => (h2.2 r hr).1) hvv.symm
    apply hne
    apply sorted_ext (hcl T hT).sorted (hcl T' hT').sorted
    intro x
    rw [← (desc_perm T).mem_iff, ← (desc_perm T').mem_iff, ← h1.1, ← h2.1]
    simp only [List.mem_map, hset]

end Verif.CollinsGisin

import Mathlib.Data.List.Nodup
import Mathlib.Data.List.Perm.Basic
import Verif.CollinsGisin.Model
import Verif.CollinsGisin.Spec
import Verif.Orbits.Lemmas
/-! Blocks of outcomes, indicator vectors and events. -/
namespace Verif.CollinsGisin
open Verif.Orbits

/-! ### Indicator vectors -/

theorem boolKey_congr {n : Nat} {a b : List Nat} (h : ∀ x, x < n → (x ∈ a ↔ x ∈ b)) : boolKey n a = boolKey n b := by
  unfold boolKey
  apply List.map_congr_left
  intro x hx
  have := h x (List.mem_range.1 hx)
  rw [Bool.eq_iff_iff]
  simpa using this

theorem boolKey_perm {n : Nat} {a b : List Nat} (h : a.Perm b) : boolKey n a = boolKey n b :=
  boolKey_congr fun _ _ => h.mem_iff

theorem boolKey_inj {n : Nat} {a b : List Nat} (h : boolKey n a = boolKey n b) {x : Nat} (hx : x < n) : x ∈ a ↔ x ∈ b := by
  have := congrArg (fun l => l[x]?) h
  simp only [boolKey, List.getElem?_map, List.getElem?_range hx, Option.map_some, Option.some.injEq] at this
  rw [Bool.eq_iff_iff] at this
  simpa using this

theorem bvOr_boolKey (n : Nat) (a b : List Nat) : bvOr (boolKey n a) (boolKey n b) = boolKey n (a ++ b) := by
  unfold bvOr boolKey
  rw [List.zipWith_map, List.zipWith_self]
  apply List.map_congr_left
  intro x _
  rw [Bool.eq_iff_iff]; simp

theorem replicate_eq (n : Nat) : List.replicate n false = boolKey n [] := by
  unfold boolKey
  apply List.ext_getElem (by simp)
  intro k h1 h2
  simp

theorem boolKey_any {n : Nat} {a : List Nat} (h : ∀ x ∈ a, x < n) : (boolKey n a).any id = !a.isEmpty := by
  rw [Bool.eq_iff_iff]
  simp only [boolKey, List.any_map, List.any_eq_true, List.mem_range, Function.comp, id_eq, List.contains_iff_mem, Bool.not_eq_true',
    List.isEmpty_eq_false_iff]
  constructor
  · rintro ⟨x, _, hx⟩ e
    rw [e] at hx
    simp at hx
  · intro hne
    obtain ⟨x, hx⟩ := List.exists_mem_of_ne_nil _ hne
    exact ⟨x, h x hx, hx⟩

theorem mem_flatnonzero_boolKey {n : Nat} {a : List Nat} {x : Nat} : x ∈ flatnonzero (boolKey n a) ↔ x < n ∧ x ∈ a := by
  unfold flatnonzero
  rw [boolKey_length]
  simp only [List.mem_filter, List.mem_range]
  apply and_congr_right
  intro hx
  simp [boolKey, List.getD_eq_getElem?_getD, hx]

theorem flatnonzero_sorted (v : List Bool) : (flatnonzero v).Pairwise (· < ·) := by
  unfold flatnonzero
  exact List.Pairwise.filter _ List.pairwise_lt_range

/-! ### Blocks -/

/-- Number of the block containing an outcome. -/
def blockIdx (blocks : List (List Nat)) (r : Nat) : Nat := blocks.findIdx fun b => b.contains r

variable {n : Nat} {blocks : List (List Nat)} {adj : Nat → Nat → Bool}

theorem BlocksOk.nodup (h : BlocksOk n blocks) : blocks.flatten.Nodup := by rw [h.flat]; exact List.nodup_range

theorem BlocksOk.lt (h : BlocksOk n blocks) {b : List Nat} (hb : b ∈ blocks) {r : Nat} (hr : r ∈ b) : r < n := by
  have : r ∈ blocks.flatten := List.mem_flatten.2 ⟨b, hb, hr⟩
  rw [h.flat] at this
  exact List.mem_range.1 this

theorem BlocksOk.exists_block (h : BlocksOk n blocks) {r : Nat} (hr : r < n) : ∃ b ∈ blocks, r ∈ b := by
  have : r ∈ blocks.flatten := by rw [h.flat]; exact List.mem_range.2 hr
  exact List.mem_flatten.1 this

theorem BlocksOk.idx_unique (h : BlocksOk n blocks) {i j : Nat} {bi bj : List Nat} (hi : blocks[i]? = some bi)
    (hj : blocks[j]? = some bj) {r : Nat} (hri : r ∈ bi) (hrj : r ∈ bj) : i = j := by
  have hnd := List.nodup_flatten.1 h.nodup
  obtain ⟨hi', rfl⟩ := List.getElem?_eq_some_iff.1 hi
  obtain ⟨hj', rfl⟩ := List.getElem?_eq_some_iff.1 hj
  have hp := List.pairwise_iff_getElem.1 hnd.2
  rcases Nat.lt_trichotomy i j with hlt | rfl | hlt
  · exact absurd hrj (hp _ _ hi' hj' hlt hri)
  · rfl
  · exact absurd hri (hp _ _ hj' hi' hlt hrj)

theorem BlocksOk.blockIdx_eq (h : BlocksOk n blocks) {i : Nat} {b : List Nat} (hi : blocks[i]? = some b) {r : Nat} (hr : r ∈ b) :
    blockIdx blocks r = i := by
  have hlt : blockIdx blocks r < blocks.length :=
    List.findIdx_lt_length_of_exists ⟨b, List.mem_of_getElem? hi, by simpa using hr⟩
  have hmem := List.findIdx_getElem (xs := blocks) (p := fun b : List Nat => b.contains r) (w := hlt)
  exact h.idx_unique (List.getElem?_eq_getElem hlt) hi (List.contains_iff_mem.1 hmem) hr

theorem BlocksOk.mem_blockIdx (h : BlocksOk n blocks) {r : Nat} (hr : r < n) :
    ∃ b, blocks[blockIdx blocks r]? = some b ∧ r ∈ b := by
  obtain ⟨b, hb, hrb⟩ := h.exists_block hr
  obtain ⟨i, hi⟩ := List.getElem?_of_mem hb
  rw [h.blockIdx_eq hi hrb]
  exact ⟨b, hi, hrb⟩

theorem BlocksOk.blockIdx_lt (h : BlocksOk n blocks) {r : Nat} (hr : r < n) : blockIdx blocks r < blocks.length := by
  obtain ⟨b, hb, _⟩ := h.mem_blockIdx hr
  exact (List.getElem?_eq_some_iff.1 hb).1

/-- Events in terms of the numbers of their measurements. -/
theorem BlocksOk.isEvent_iff (h : BlocksOk n blocks) {e : List Nat} :
    IsEvent blocks adj e ↔ (∀ r ∈ e, r < n) ∧ (e.map (blockIdx blocks)).Pairwise fun i j => i ≠ j ∧ adj i j = true := by
  constructor
  · intro he
    have hlt : ∀ r ∈ e, r < n := by
      intro r hr
      obtain ⟨b, hb, hrb⟩ := he.ops r hr
      exact h.lt hb hrb
    refine ⟨hlt, ?_⟩
    rw [List.pairwise_map]
    refine List.Pairwise.imp_of_mem ?_ he.compat
    intro r s hr hs hrs
    obtain ⟨b, hb, hrb⟩ := h.mem_blockIdx (hlt r hr)
    obtain ⟨c, hc, hsc⟩ := h.mem_blockIdx (hlt s hs)
    exact hrs _ _ b c hb hc hrb hsc
  · rintro ⟨hlt, hp⟩
    refine ⟨fun r hr => h.exists_block (hlt r hr), ?_⟩
    rw [List.pairwise_map] at hp
    refine List.Pairwise.imp ?_ hp
    intro r s hrs i j bi bj hi hj hri hsj
    rw [← h.blockIdx_eq hi hri, ← h.blockIdx_eq hj hsj]
    exact hrs

theorem BlocksOk.isEvent_perm (h : BlocksOk n blocks) (hs : ∀ a b, adj a b = adj b a) {e e' : List Nat} (hp : e.Perm e')
    (he : IsEvent blocks adj e) : IsEvent blocks adj e' := by
  rw [h.isEvent_iff] at he ⊢
  refine ⟨fun r hr => he.1 r (hp.mem_iff.2 hr), ?_⟩
  refine ((hp.map (blockIdx blocks)).pairwise_iff ?_).1 he.2
  rintro x y ⟨hxy, ha⟩
  exact ⟨hxy.symm, by rw [hs]; exact ha⟩

theorem BlocksOk.isEvent_sublist (h : BlocksOk n blocks) {e e' : List Nat} (hp : e'.Sublist e)
    (he : IsEvent blocks adj e) : IsEvent blocks adj e' := by
  rw [h.isEvent_iff] at he ⊢
  exact ⟨fun r hr => he.1 r (hp.subset hr), List.Pairwise.sublist (hp.map _) he.2⟩

theorem BlocksOk.isEvent_of_map (h : BlocksOk n blocks) {e e' : List Nat} (hlt : ∀ r ∈ e', r < n)
    (hm : e'.map (blockIdx blocks) = e.map (blockIdx blocks)) (he : IsEvent blocks adj e) : IsEvent blocks adj e' := by
  rw [h.isEvent_iff] at he ⊢
  exact ⟨hlt, by rw [hm]; exact he.2⟩

theorem BlocksOk.event_nodup (h : BlocksOk n blocks) {e : List Nat} (he : IsEvent blocks adj e) : e.Nodup := by
  rw [h.isEvent_iff] at he
  have := he.2
  rw [List.pairwise_map] at this
  exact List.Pairwise.imp (fun h e => h.1 (by rw [e])) this

/-- Events only depend on the set of outcomes. -/
theorem BlocksOk.isEvent_set (h : BlocksOk n blocks) (hs : ∀ a b, adj a b = adj b a) {e e' : List Nat} (hn : e'.Nodup)
    (hm : ∀ x, x ∈ e' → x ∈ e) (he : IsEvent blocks adj e) : IsEvent blocks adj e' := by
  have hsub : e'.Subperm e := List.subperm_of_subset hn hm
  obtain ⟨l, hl, hsl⟩ := hsub
  exact h.isEvent_perm hs hl (h.isEvent_sublist hsl he)

end Verif.CollinsGisin
